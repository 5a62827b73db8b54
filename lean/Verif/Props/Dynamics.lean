import Mathlib.Analysis.ODE.ExistUnique
import Mathlib.Topology.Algebra.MetricSpace.Lipschitz
import Mathlib.Analysis.Calculus.Deriv.Add
import Mathlib.Analysis.Calculus.Deriv.Mul
import Mathlib.Analysis.Calculus.Deriv.Pi
import Mathlib.Analysis.SpecialFunctions.Exponential
import Verif.Lemmas.MatExp
import Verif.Spec.Dynamics
import Verif.Props.Hamiltonian
import Verif.Props.Emlp

/-!
# Hamiltonian networks, neural ODEs and their rollouts
-/
namespace Verif
open List Set

/-! ## Vectors as lists and as functions -/

theorem ofFn_getD {n : ℕ} {x : List ℝ} (hx : x.length = n) : List.ofFn (fun i : Fin n => x.getD i 0) = x := by
  refine DMat.vec_ext (by simp [hx]) fun i hi => ?_
  have hi' : i < n := by simpa using hi
  rw [getD_eq_getElem _ _ hi, List.getElem_ofFn]

theorem getD_ofFn {n : ℕ} (v : Fin n → ℝ) (i : Fin n) : (List.ofFn v).getD i 0 = v i := by
  rw [getD_eq_getElem _ _ (by simp), List.getElem_ofFn]

theorem mulVec_ofFn {n : ℕ} {M : DMat ℝ} (hM : M.IsSq n) (v : Fin n → ℝ) :
    M.mulVec (List.ofFn v) = List.ofFn fun i : Fin n => ∑ j : Fin n, M.e i j * v j := by
  refine DMat.vec_ext (by simp [hM.1]) fun i hi => ?_
  have hi' : i < n := by simpa [hM.1] using hi
  rw [DMat.getD_mulVec (by rw [hM.1]; exact hi'), hM.2, Finset.sum_range]
  rw [getD_ofFn (fun i : Fin n => ∑ j : Fin n, M.e i j * v j) ⟨i, hi'⟩]
  exact Finset.sum_congr rfl fun j _ => by rw [getD_ofFn]

/-! ## C91: invariant Hamiltonians have equivariant dynamics -/

theorem symplecticForm_eq (d : ℕ) (z : List ℝ) (hz : z.length = d + d) : symplecticForm z = .ok ((sympMat d).mulVec z) := by
  obtain ⟨q, p, -, rfl, hl⟩ := (C84_pack_unpack z).2 (by omega)
  rw [pack] at hz ⊢
  have hq : q.length = d := by rw [length_append] at hz; omega
  have hp : p.length = d := by omega
  rw [symplectic_pack _ _ hl]
  congr 1
  refine DMat.vec_ext (by simp [sympMat, DMat.of, hq, hp]) fun i hi => ?_
  have hi' : i < d + d := by rw [length_append, length_map, hq, hp] at hi; exact hi
  rw [DMat.getD_mulVec (by exact hi')]
  show _ = ∑ j ∈ Finset.range (d + d), (sympMat d).e i j * (q ++ p).getD j 0
  have he : ∀ j ∈ Finset.range (d + d), (sympMat d).e i j * (q ++ p).getD j 0 =
      (if i < d then (if j = i + d then (1 : ℝ) else 0) else (if i = j + d then -1 else 0)) * (q ++ p).getD j 0 := fun j hj => by
    rw [sympMat, DMat.of_e hi' (Finset.mem_range.1 hj)]
  rw [Finset.sum_congr rfl he]
  by_cases h : i < d
  · rw [getD_append _ _ _ _ (by omega)]
    simp only [h, if_true, ite_mul, one_mul, zero_mul]
    rw [Finset.sum_ite_eq' (Finset.range (d + d)) (i + d), if_pos (Finset.mem_range.2 (by omega)), getD_append_right _ _ _ _ (by omega)]
    congr 1; omega
  · rw [getD_append_right _ _ _ _ (by omega)]
    simp only [h, if_false, ite_mul, neg_one_mul, zero_mul]
    have : ∀ j ∈ Finset.range (d + d), (if i = j + d then -(q ++ p).getD j 0 else 0) = if j = i - d then -(q ++ p).getD j 0 else 0 := by
      intro j _
      refine if_congr ?_ rfl rfl
      omega
    rw [Finset.sum_congr rfl this, Finset.sum_ite_eq' (Finset.range (d + d)) (i - d), if_pos (Finset.mem_range.2 (by omega)),
      getD_append _ _ _ _ (by omega), getD_eq_getElem _ _ (by rw [length_map]; omega), getD_eq_getElem _ _ (by omega), getElem_map]
    congr 2; omega

theorem sympMat_mulVec {d : ℕ} {q p : List ℝ} (hq : q.length = d) (hp : p.length = d) :
    (sympMat d).mulVec (q ++ p) = p ++ q.map fun x => -x := by
  have := symplecticForm_eq d (q ++ p) (by simp [hq, hp])
  rw [symplectic_pack _ _ (by omega)] at this
  exact (Except.ok.inj this).symm

theorem mulVec_neg (B : DMat ℝ) (v : List ℝ) : B.mulVec (v.map fun x => -x) = (B.mulVec v).map fun x => -x := by
  refine DMat.vec_ext (by simp) fun i hi => ?_
  rw [DMat.length_mulVec] at hi
  have hn : ∀ (w : List ℝ) j, (w.map fun x => -x).getD j 0 = - w.getD j 0 := by
    intro w j
    by_cases hj : j < w.length
    · rw [getD_eq_getElem _ _ (by simpa using hj), getD_eq_getElem _ _ hj, getElem_map]
    · rw [getD_eq_default _ _ (by simpa using hj), getD_eq_default _ _ (by simpa using hj), neg_zero]
  rw [hn, DMat.getD_mulVec hi, DMat.getD_mulVec hi, ← Finset.sum_neg_distrib]
  exact Finset.sum_congr rfl fun j _ => by rw [hn, mul_neg]

theorem ext_mulVec {n : ℕ} {A B : DMat ℝ} (hA : A.IsSq n) (hB : B.IsSq n) (h : ∀ v : List ℝ, v.length = n → A.mulVec v = B.mulVec v) : A = B := by
  have key : ∀ (C : DMat ℝ), C.IsSq n → ∀ i < n, ∀ j < n, (C.mulVec (List.ofFn fun k : Fin n => if (k : ℕ) = j then 1 else 0)).getD i 0 = C.e i j := by
    intro C hC i hi j hj
    rw [mulVec_ofFn hC, getD_ofFn _ ⟨i, hi⟩]
    rw [Finset.sum_eq_single (⟨j, hj⟩ : Fin n)]
    · simp
    · intro k _ hk
      rw [if_neg (fun h => hk (Fin.ext h)), mul_zero]
    · intro h; exact absurd (Finset.mem_univ _) h
  refine DMat.ext (by rw [hA.1, hB.1]) (by rw [hA.2, hB.2]) fun i j hi hj => ?_
  rw [hA.1] at hi
  rw [hA.2] at hj
  rw [← key A hA i hi j hj, ← key B hB i hi j hj, h _ (by simp)]

/-- The gradient of an invariant function: `Mᵀ ∇H(Mx) = ∇H(x)`. -/
theorem grad_invariant {n : ℕ} {H : List ℝ → ℝ} {grad : List ℝ → List ℝ} {M : DMat ℝ} (hM : M.IsSq n)
    (hH : ∀ x : List ℝ, x.length = n → H (M.mulVec x) = H x) {x : List ℝ} (hx : x.length = n) (h1 : IsGradAt n H grad x)
    (h2 : IsGradAt n H grad (M.mulVec x)) : M.transpose.mulVec (grad (M.mulVec x)) = grad x := by
  obtain ⟨v, rfl⟩ : ∃ v : Fin n → ℝ, List.ofFn v = x := ⟨_, ofFn_getD hx⟩
  let T : (Fin n → ℝ) → Fin n → ℝ := fun u i => ∑ j : Fin n, M.e i j * u j
  have hT : ∀ u, M.mulVec (List.ofFn u) = List.ofFn (T u) := mulVec_ofFn hM
  let TL : (Fin n → ℝ) →L[ℝ] (Fin n → ℝ) := ContinuousLinearMap.pi fun i => ∑ j : Fin n, M.e i j • ContinuousLinearMap.proj (R := ℝ) (φ := fun _ : Fin n => ℝ) j
  have hTL : ∀ u, TL u = T u := by
    intro u
    funext i
    simp [TL, T]
  have hfn : ∀ u : Fin n → ℝ, (fun i : Fin n => (List.ofFn u).getD i 0) = u := fun u => funext fun i => getD_ofFn u i
  rw [hT] at h2 ⊢
  obtain ⟨l1, L, hL, hL'⟩ := h2
  obtain ⟨l2, K, hK, hK'⟩ := h1
  rw [hfn] at hL hK
  have hc : HasFDerivAt (fun u => H (List.ofFn (T u))) (L.comp TL) v := by
    have h1 : HasFDerivAt T TL v := by
      have := TL.hasFDerivAt (x := v)
      exact this.congr_of_eventuallyEq (Filter.Eventually.of_forall fun u => (hTL u).symm)
    exact HasFDerivAt.comp v hL h1
  have he : (fun u => H (List.ofFn (T u))) = fun u => H (List.ofFn u) := by
    funext u
    rw [← hT, hH _ (by simp)]
  rw [he] at hc
  have hu := hc.unique hK
  refine DMat.vec_ext (by rw [DMat.length_mulVec, l2]; exact hM.2) fun i hi => ?_
  have hi' : i < n := by rw [DMat.length_mulVec] at hi; exact lt_of_lt_of_eq hi hM.2
  rw [DMat.getD_mulVec (by rw [DMat.length_mulVec] at hi; exact hi)]
  have e := congrArg (fun L => L (Pi.single (⟨i, hi'⟩ : Fin n) (1 : ℝ))) hu
  simp only [ContinuousLinearMap.comp_apply, hL', hK', hTL, T] at e
  simp only [Pi.single_apply, mul_ite, mul_one, mul_zero, Finset.sum_ite_eq', Finset.mem_univ, if_true] at e
  rw [← e]
  show ∑ j ∈ Finset.range M.rows, _ = _
  rw [hM.1, Finset.sum_range]
  exact Finset.sum_congr rfl fun j _ => by rw [DMat.transpose_e, mul_comm]

/-- **C91, dynamics.** If `H` is invariant under a matrix that preserves the symplectic form, then `hamiltonian_dynamics` commutes with it,
at all states where `H` is differentiable. -/
theorem C91_dynamics {d : ℕ} {M : DMat ℝ} (hM : Symplectic d M) {H : List ℝ → ℝ} {grad : List ℝ → List ℝ}
    (hH : ∀ x : List ℝ, x.length = d + d → H (M.mulVec x) = H x) {z : List ℝ} (hz : z.length = d + d) (h1 : IsGradAt (d + d) H grad z)
    (h2 : IsGradAt (d + d) H grad (M.mulVec z)) :
    ∃ v, hamiltonianDynamics grad z = .ok v ∧ v.length = d + d ∧ hamiltonianDynamics grad (M.mulVec z) = .ok (M.mulVec v) := by
  refine ⟨(sympMat d).mulVec (grad z), symplecticForm_eq d _ h1.1, by simp [sympMat, DMat.of], ?_⟩
  rw [hamiltonianDynamics, symplecticForm_eq d _ h2.1, ← grad_invariant hM.1 hH hz h1 h2]
  rw [← DMat.mulVec_mul _ _ _ (by rw [hM.1.2]; rfl), ← DMat.mulVec_mul _ _ _ (by show d + d = M.cols; rw [hM.1.2]), hM.2]

/-- **C91, which matrices.** `[[A,0],[0,B]]` preserves the symplectic form when `B` is the inverse transpose of `A`; so `[[A,0],[0,A]]` does
for every orthogonal `A`, in particular when `A` is made of copies of an orthogonal matrix. -/
theorem C91_symplectic {d : ℕ} {A B : DMat ℝ} (hA : A.IsSq d) (hB : B.IsSq d) (h : A.mul B.transpose = DMat.one d) :
    Symplectic d (DMat.bdiag2 A B) := by
  have hsq : (DMat.bdiag2 A B).IsSq (d + d) := ⟨by rw [DMat.bdiag2_rows, hA.1, hB.1], by rw [DMat.bdiag2_cols, hA.2, hB.2]⟩
  have h' : B.mul A.transpose = DMat.one d := by
    have := congrArg DMat.transpose h
    rwa [DMat.transpose_mul _ _ (by rw [hA.2]; exact hB.2.symm), DMat.transpose_transpose, DMat.transpose_one] at this
  refine ⟨hsq, ext_mulVec (n := d + d) ⟨by exact hsq.1, by exact hsq.1⟩ ⟨rfl, rfl⟩ fun v hv => ?_⟩
  obtain ⟨q, p, -, rfl, hl⟩ := (C84_pack_unpack v).2 (by omega)
  rw [pack] at hv ⊢
  have hq : q.length = d := by rw [length_append] at hv; omega
  have hp : p.length = d := by omega
  have hAt : A.transpose.IsSq d := ⟨hA.2, hA.1⟩
  have hBt : B.transpose.IsSq d := ⟨hB.2, hB.1⟩
  rw [DMat.mulVec_mul _ _ _ (by exact hsq.2.symm), DMat.mulVec_mul _ _ _ (by exact hsq.2), DMat.transpose_bdiag2,
    DMat.mulVec_bdiag2 _ _ _ _ (by rw [hq, hAt.2]), sympMat_mulVec (by rw [DMat.length_mulVec, hAt.1]) (by rw [DMat.length_mulVec, hBt.1]), sympMat_mulVec hq hp,
    DMat.mulVec_bdiag2 _ _ _ _ (by rw [DMat.length_mulVec, hBt.1, hA.2]), mulVec_neg, ← DMat.mulVec_mul _ _ _ (by rw [hA.2, hBt.1]),
    ← DMat.mulVec_mul _ _ _ (by rw [hB.2, hAt.1]), h, h', DMat.mulVec_one _ hp, DMat.mulVec_one _ hq]

/-! ## C92: rollouts -/

section
variable {n : ℕ}

theorem solves_continuousOn {f : List ℝ → List ℝ} {z : ℝ → Fin n → ℝ} {a b : ℝ} (h : Solves f z a b) : ContinuousOn z (Icc a b) :=
  fun t ht => (h t ht).continuousWithinAt

theorem solves_right {f : List ℝ → List ℝ} {z : ℝ → Fin n → ℝ} {a b : ℝ} (h : Solves f z a b) {t : ℝ} (ht : t ∈ Ico a b) :
    HasDerivWithinAt z (asMap n f (z t)) (Ici t) t :=
  (h t (Ico_subset_Icc_self ht)).mono_of_mem_nhdsWithin (Icc_mem_nhdsGE_of_mem ht)

theorem solves_unique {f : List ℝ → List ℝ} (hf : LocallyLipschitz (asMap n f)) {z w : ℝ → Fin n → ℝ} {a b : ℝ} (hz : Solves f z a b)
    (hw : Solves f w a b) (h0 : z a = w a) : EqOn z w (Icc a b) := by
  have hc : IsCompact (z '' Icc a b ∪ w '' Icc a b) :=
    (isCompact_Icc.image_of_continuousOn (solves_continuousOn hz)).union (isCompact_Icc.image_of_continuousOn (solves_continuousOn hw))
  obtain ⟨K, hK⟩ := (hf.locallyLipschitzOn (s := z '' Icc a b ∪ w '' Icc a b)).exists_lipschitzOnWith_of_compact hc
  exact ODE_solution_unique_of_mem_Icc_right (v := fun _ => asMap n f) (s := fun _ => z '' Icc a b ∪ w '' Icc a b) (K := K) (fun _ _ => hK)
    (solves_continuousOn hz) (fun t ht => solves_right hz ht) (fun t ht => Or.inl ⟨t, Ico_subset_Icc_self ht, rfl⟩)
    (solves_continuousOn hw) (fun t ht => solves_right hw ht) (fun t ht => Or.inr ⟨t, Ico_subset_Icc_self ht, rfl⟩) h0

/-- The times are not before the first one. -/
def Forward (ts : List ℝ) : Prop := ∀ t ∈ ts, ts.headD 0 ≤ t

/-- **C92, uniqueness.** A locally Lipschitz field has one rollout from each initial state. -/
theorem C92_unique {f : List ℝ → List ℝ} (hf : LocallyLipschitz (asMap n f)) {z0 ts : List ℝ} (hts : Forward ts) {zs ws : List (List ℝ)}
    (hz : Rollout n f z0 ts zs) (hw : Rollout n f z0 ts ws) : zs = ws := by
  obtain ⟨z, h1, h2, rfl⟩ := hz
  obtain ⟨w, k1, k2, rfl⟩ := hw
  refine map_congr_left fun t ht => ?_
  rw [solves_unique hf (h2 t ht) (k2 t ht) (List.ofFn_injective (h1.trans k1.symm)) ⟨hts t ht, le_rfl⟩]

/-- A matrix that commutes with the field takes rollouts to rollouts. -/
theorem Rollout.map {f : List ℝ → List ℝ} {M : DMat ℝ} (hM : M.IsSq n)
    (hf : ∀ x : List ℝ, x.length = n → (f x).length = n ∧ f (M.mulVec x) = M.mulVec (f x)) {z0 ts : List ℝ} {zs : List (List ℝ)}
    (h : Rollout n f z0 ts zs) : Rollout n f (M.mulVec z0) ts (zs.map M.mulVec) := by
  obtain ⟨z, h1, h2, rfl⟩ := h
  refine ⟨fun t i => ∑ j : Fin n, M.e i j * z t j, ?_, ?_, ?_⟩
  · rw [← mulVec_ofFn hM, h1]
  · intro b hb t ht
    have hd := hasDerivWithinAt_pi.1 (h2 b hb t ht)
    rw [hasDerivWithinAt_pi]
    intro i
    have e : asMap n f (fun i => ∑ j : Fin n, M.e i j * z t j) i = ∑ j : Fin n, M.e i j * asMap n f (z t) j := by
      unfold asMap
      rw [← mulVec_ofFn hM, (hf _ (by simp)).2, DMat.getD_mulVec (by rw [hM.1]; exact i.2), hM.2, Finset.sum_range]
    rw [e]
    exact HasDerivWithinAt.fun_sum fun j _ => (hd j).const_mul _
  · rw [map_map]
    exact map_congr_left fun t _ => mulVec_ofFn hM (z t)

/-- **C92, equivariance.** If the field commutes with a matrix, and does not depend on the time, then so does the rollout: `odeint(f,Mz0,ts) = M odeint(f,z0,ts)`. -/
theorem C92_equivariant {odeint : Odeint} {f : List ℝ → ℝ → List ℝ} {ts : List ℝ} (ho : odeint.Exact n f ts) (hts : Forward ts)
    (hauto : ∀ z : List ℝ, z.length = n → ∀ t, f z t = f z 0) (hL : LocallyLipschitz (asMap n fun z => f z 0)) {M : DMat ℝ} (hM : M.IsSq n)
    (hf : ∀ x : List ℝ, x.length = n → (f x 0).length = n ∧ f (M.mulVec x) 0 = M.mulVec (f x 0)) {z0 : List ℝ} (hz : z0.length = n) :
    odeint f (M.mulVec z0) ts = (odeint f z0 ts).map M.mulVec :=
  C92_unique hL hts (ho hauto _ (by simp [hM.1])) ((ho hauto z0 hz).map hM hf)

end

section
variable {d : ℕ} {H : List ℝ → ℝ} {grad : List ℝ → List ℝ} {odeint : Odeint} {ts : List ℝ}

theorem grad_length (hg : IsGrad (d + d) H grad) {x : List ℝ} (hx : x.length = d + d) : (grad x).length = d + d := (hg x hx).1

theorem dynamics_ok (hg : IsGrad (d + d) H grad) {x : List ℝ} (hx : x.length = d + d) :
    hamiltonianDynamics grad x = .ok ((sympMat d).mulVec (grad x)) := symplecticForm_eq d _ (grad_length hg hx)

theorem total_ok (hg : IsGrad (d + d) H grad) {x : List ℝ} (hx : x.length = d + d) (t : ℝ) :
    total (fun z _ => hamiltonianDynamics grad z) x t = (sympMat d).mulVec (grad x) := by
  unfold total
  beta_reduce
  rw [dynamics_ok hg hx]; rfl

/-- **C92, Hamiltonian rollouts.** For an invariant Hamiltonian and a matrix that preserves the symplectic form, the rollout of the
transformed state is the transformed rollout. -/
theorem C92_hamiltonian (hg : IsGrad (d + d) H grad) {M : DMat ℝ} (hM : Symplectic d M) (hH : ∀ x : List ℝ, x.length = d + d → H (M.mulVec x) = H x)
    (ho : odeint.Exact (d + d) (total fun z _ => hamiltonianDynamics grad z) ts) (hts : Forward ts)
    (hL : LocallyLipschitz (asMap (d + d) fun x => total (fun z _ => hamiltonianDynamics grad z) x 0)) {z0 : List ℝ} (hz : z0.length = d + d) :
    ∃ zs, hamiltonianFlow odeint grad z0 ts = .ok zs ∧ zs.length = ts.length ∧ hamiltonianFlow odeint grad (M.mulVec z0) ts = .ok (zs.map M.mulVec) := by
  have hMz : (M.mulVec z0).length = d + d := by rw [DMat.length_mulVec, hM.1.1]
  refine ⟨_, by unfold hamiltonianFlow; rw [dynamics_ok hg hz]; rfl, ?_, ?_⟩
  · obtain ⟨z, -, -, h⟩ := ho (fun _ _ _ => rfl) z0 hz
    rw [h, length_map]
  · unfold hamiltonianFlow
    rw [dynamics_ok hg hMz]
    show Except.ok _ = _
    rw [C92_equivariant ho hts (fun _ _ _ => rfl) hL hM.1 (fun x hx => ?_) hz]
    obtain ⟨v, h1, h2, h3⟩ := C91_dynamics hM hH hx (hg x hx) (hg _ (by rw [DMat.length_mulVec, hM.1.1]))
    unfold total
    beta_reduce
    rw [h1, h3]
    exact ⟨h2, rfl⟩

/-- Every state of a rollout of a Hamiltonian field has the energy of the initial state. -/
theorem Rollout.energy (hg : IsGrad (d + d) H grad) (hts : Forward ts) {z0 : List ℝ} {zs : List (List ℝ)}
    (h : Rollout (d + d) (fun z => total (fun z _ => hamiltonianDynamics grad z) z 0) z0 ts zs) : ∀ z ∈ zs, H z = H z0 := by
  obtain ⟨z, h1, h2, h3⟩ := h
  rw [h3, ← h1]
  intro w hw
  obtain ⟨t, ht, rfl⟩ := mem_map.1 hw
  have hc := constant_of_has_deriv_right_zero (f := fun t => H (List.ofFn (z t))) (a := ts.headD 0) (b := t) ?_ ?_ t ⟨hts t ht, le_rfl⟩
  · exact hc
  · intro s hs
    obtain ⟨-, L, hL, -⟩ := hg (List.ofFn (z s)) (by simp)
    rw [show (fun i : Fin (d + d) => (List.ofFn (z s)).getD i 0) = z s from funext fun i => getD_ofFn _ i] at hL
    exact hL.continuousAt.comp_continuousWithinAt (solves_continuousOn (h2 t ht) s hs)
  · intro s hs
    obtain ⟨-, L, hL, hv⟩ := hg (List.ofFn (z s)) (by simp)
    rw [show (fun i : Fin (d + d) => (List.ofFn (z s)).getD i 0) = z s from funext fun i => getD_ofFn _ i] at hL
    have hd := hL.comp_hasDerivWithinAt s (solves_right (h2 t ht) hs)
    refine hd.congr_deriv ?_
    rw [hv]
    have hx : (List.ofFn (z s)).length = d + d := by simp
    obtain ⟨v, e1, e2, e3⟩ := C84_conserves grad (List.ofFn (z s)) (by rw [grad_length hg hx]; omega)
    have ev : asMap (d + d) (fun z => total (fun z _ => hamiltonianDynamics grad z) z 0) (z s) = fun i : Fin (d + d) => v.getD i 0 := by
      funext i
      unfold asMap total
      beta_reduce
      rw [e1]; rfl
    rw [ev]
    rw [← ofFn_getD (grad_length hg hx), ← ofFn_getD (e2.trans (grad_length hg hx)), ldot_ofFn] at e3
    exact e3

/-- **C92, energy.** Every state of a rollout has the energy of the initial state. -/
theorem C92_energy (hg : IsGrad (d + d) H grad) (ho : odeint.Exact (d + d) (total fun z _ => hamiltonianDynamics grad z) ts) (hts : Forward ts)
    {z0 : List ℝ} (hz : z0.length = d + d) {zs : List (List ℝ)} (h : hamiltonianFlow odeint grad z0 ts = .ok zs) : ∀ z ∈ zs, H z = H z0 := by
  unfold hamiltonianFlow at h
  rw [dynamics_ok hg hz] at h
  rw [← Except.ok.inj h]
  exact Rollout.energy hg hts (ho (fun _ _ _ => rfl) z0 hz)

end

/-! ### Conserved momenta -/

/-- `p·Xq` for the state `q ++ p`. -/
noncomputable def momentum {d : ℕ} (X : Matrix (Fin d) (Fin d) ℝ) (z : List ℝ) : ℝ := ∑ i : Fin d, ∑ j : Fin d, z.getD (d + i) 0 * X i j * z.getD j 0

section
variable {d : ℕ} {H : List ℝ → ℝ} {grad : List ℝ → List ℝ} {odeint : Odeint} {ts : List ℝ}

set_option backward.isDefEq.respectTransparency false in
open scoped Matrix.Norms.Operator in
theorem exp_deriv (X : Matrix (Fin d) (Fin d) ℝ) (i j : Fin d) : HasDerivAt (fun t : ℝ => NormedSpace.exp (t • X) i j) (X i j) 0 := by
  have h := hasDerivAt_exp_smul_const (𝕂 := ℝ) X (0 : ℝ)
  have h2 : HasDerivAt (fun t : ℝ => NormedSpace.exp (t • X)) X 0 := by simpa using h
  rw [hasDerivAt_pi] at h2
  have h3 := h2 i
  rw [hasDerivAt_pi] at h3
  exact h3 j

/-- The gradient of an invariant function is orthogonal to the direction of the symmetry. -/
theorem grad_infinitesimal (hg : IsGrad (d + d) H grad) (X : Matrix (Fin d) (Fin d) ℝ)
    (hX : ∀ (t : ℝ) (q p : Fin d → ℝ), H (List.ofFn ((NormedSpace.exp (t • X)).mulVec q) ++ List.ofFn ((NormedSpace.exp (t • (-X.transpose))).mulVec p)) =
      H (List.ofFn q ++ List.ofFn p)) (q p : Fin d → ℝ) :
    ∑ i : Fin d, (grad (List.ofFn q ++ List.ofFn p)).getD i 0 * X.mulVec q i - ∑ i : Fin d, (grad (List.ofFn q ++ List.ofFn p)).getD (d + i) 0 * X.transpose.mulVec p i = 0 := by
  have ea : ∀ u v : Fin d → ℝ, List.ofFn u ++ List.ofFn v = List.ofFn (Fin.append u v) := fun u v => (List.ofFn_fin_append u v).symm
  obtain ⟨-, L, hL, hv⟩ := hg (List.ofFn (Fin.append q p)) (by simp)
  rw [show (fun i : Fin (d + d) => (List.ofFn (Fin.append q p)).getD i 0) = Fin.append q p from funext fun i => getD_ofFn _ i] at hL
  have hcurve : HasDerivAt (fun t : ℝ => Fin.append ((NormedSpace.exp (t • X)).mulVec q) ((NormedSpace.exp (t • (-X.transpose))).mulVec p))
      (Fin.append (X.mulVec q) ((-X.transpose).mulVec p)) 0 := by
    rw [hasDerivAt_pi]
    intro i
    refine Fin.addCases (fun i => ?_) (fun i => ?_) i
    · simp only [Fin.append_left]
      show HasDerivAt (fun t : ℝ => ∑ j, NormedSpace.exp (t • X) i j * q j) (∑ j, X i j * q j) 0
      exact HasDerivAt.fun_sum fun j _ => (exp_deriv X i j).mul_const _
    · simp only [Fin.append_right]
      show HasDerivAt (fun t : ℝ => ∑ j, NormedSpace.exp (t • (-X.transpose)) i j * p j) (∑ j, (-X.transpose) i j * p j) 0
      exact HasDerivAt.fun_sum fun j _ => (exp_deriv (-X.transpose) i j).mul_const _
  have h0 : Fin.append ((NormedSpace.exp ((0 : ℝ) • X)).mulVec q) ((NormedSpace.exp ((0 : ℝ) • (-X.transpose))).mulVec p) = Fin.append q p := by
    simp
  have hcomp := HasFDerivAt.comp_hasDerivAt (0 : ℝ) (f := fun t : ℝ => Fin.append ((NormedSpace.exp (t • X)).mulVec q) ((NormedSpace.exp (t • (-X.transpose))).mulVec p))
    (by rw [h0]; exact hL) hcurve
  have hconst : ((fun v => H (List.ofFn v)) ∘ fun t : ℝ => Fin.append ((NormedSpace.exp (t • X)).mulVec q) ((NormedSpace.exp (t • (-X.transpose))).mulVec p)) =
      fun _ => H (List.ofFn q ++ List.ofFn p) := by
    funext t
    simp only [Function.comp]
    rw [← ea, hX]
  rw [hconst] at hcomp
  have := hcomp.unique (hasDerivAt_const _ _)
  rw [hv, Fin.sum_univ_add] at this
  simp only [Fin.append_left, Fin.append_right, Matrix.neg_mulVec, Pi.neg_apply, mul_neg, Finset.sum_neg_distrib, Fin.val_castAdd, Fin.val_natAdd] at this
  rw [ea, sub_eq_add_neg]
  exact this

/-- Every state of a rollout of a Hamiltonian field has the momentum of the initial state. -/
theorem Rollout.momentum (hg : IsGrad (d + d) H grad) (hts : Forward ts)
    (X : Matrix (Fin d) (Fin d) ℝ)
    (hX : ∀ (t : ℝ) (q p : Fin d → ℝ), H (List.ofFn ((NormedSpace.exp (t • X)).mulVec q) ++ List.ofFn ((NormedSpace.exp (t • (-X.transpose))).mulVec p)) =
      H (List.ofFn q ++ List.ofFn p)) {z0 : List ℝ} {zs : List (List ℝ)}
    (h : Rollout (d + d) (fun z => total (fun z _ => hamiltonianDynamics grad z) z 0) z0 ts zs) : ∀ z ∈ zs, Verif.momentum X z = Verif.momentum X z0 := by
  obtain ⟨z, h1, h2, h3⟩ := h
  rw [h3, ← h1]
  intro w hw
  obtain ⟨t, ht, rfl⟩ := mem_map.1 hw
  have em : ∀ v : Fin (d + d) → ℝ, Verif.momentum X (List.ofFn v) = ∑ i : Fin d, ∑ j : Fin d, v (Fin.natAdd d i) * X i j * v (Fin.castAdd d j) := by
    intro v
    unfold Verif.momentum
    refine Finset.sum_congr rfl fun i _ => Finset.sum_congr rfl fun j _ => ?_
    rw [← getD_ofFn v (Fin.natAdd d i), ← getD_ofFn v (Fin.castAdd d j)]; rfl
  rw [em, em]
  have hder : ∀ s ∈ Ico (ts.headD 0) t, HasDerivWithinAt (fun t => ∑ i : Fin d, ∑ j : Fin d, z t (Fin.natAdd d i) * X i j * z t (Fin.castAdd d j)) 0 (Ici s) s := by
    intro s hs
    have hd := hasDerivWithinAt_pi.1 (solves_right (h2 t ht) hs)
    refine (HasDerivWithinAt.fun_sum fun i _ => HasDerivWithinAt.fun_sum fun j _ =>
      ((hd (Fin.natAdd d i)).mul_const (X i j)).mul (hd (Fin.castAdd d j))).congr_deriv ?_
    -- the field
    have hx : (List.ofFn (z s)).length = d + d := by simp
    obtain ⟨q, hq⟩ : ∃ q : Fin d → ℝ, q = fun i => z s (Fin.castAdd d i) := ⟨_, rfl⟩
    obtain ⟨p, hp⟩ : ∃ p : Fin d → ℝ, p = fun i => z s (Fin.natAdd d i) := ⟨_, rfl⟩
    have hzq : z s = Fin.append q p := by
      funext i
      refine Fin.addCases (fun i => ?_) (fun i => ?_) i
      · rw [Fin.append_left, hq]
      · rw [Fin.append_right, hp]
    obtain ⟨G, hG⟩ : ∃ G, G = grad (List.ofFn (z s)) := ⟨_, rfl⟩
    have hGl : G.length = d + d := by rw [hG]; exact grad_length hg hx
    obtain ⟨a, b, -, hab, hl⟩ := (C84_pack_unpack G).2 (by omega)
    rw [pack] at hab
    have ha : a.length = d := by rw [← hab, length_append] at hGl; omega
    have hb : b.length = d := by omega
    have hf : ∀ i : Fin (d + d), asMap (d + d) (fun z => total (fun z _ => hamiltonianDynamics grad z) z 0) (z s) i = (b ++ a.map fun x => -x).getD i 0 := by
      intro i
      unfold asMap
      beta_reduce
      rw [total_ok hg hx, ← hG, ← hab, sympMat_mulVec ha hb]
    have hfq : ∀ i : Fin d, asMap (d + d) (fun z => total (fun z _ => hamiltonianDynamics grad z) z 0) (z s) (Fin.castAdd d i) = G.getD (d + i) 0 := by
      intro i
      have l1 : (b ++ a.map fun x => -x).getD i 0 = b.getD i 0 := getD_append _ _ _ _ (by rw [hb]; exact i.2)
      have l2 : (a ++ b).getD (d + i) 0 = b.getD i 0 := by
        rw [getD_append_right _ _ _ _ (by omega)]
        congr 1; omega
      rw [hf, ← hab, Fin.val_castAdd, l1, l2]
    have hfp : ∀ i : Fin d, asMap (d + d) (fun z => total (fun z _ => hamiltonianDynamics grad z) z 0) (z s) (Fin.natAdd d i) = - G.getD i 0 := by
      intro i
      have l1 : (b ++ a.map fun x => -x).getD (d + i) 0 = - a.getD i 0 := by
        rw [getD_append_right _ _ _ _ (by omega), show d + (i : ℕ) - b.length = i by omega, getD_eq_getElem _ _ (by rw [length_map, ha]; exact i.2), getElem_map,
          getD_eq_getElem _ _ (by rw [ha]; exact i.2)]
      have l2 : (a ++ b).getD i 0 = a.getD i 0 := getD_append _ _ _ _ (by rw [ha]; exact i.2)
      rw [hf, ← hab, Fin.val_natAdd, l1, l2]
    have hinf := grad_infinitesimal hg X hX q p
    rw [← List.ofFn_fin_append, ← hzq, ← hG] at hinf
    simp only [hfq, hfp]
    have e1 : ∑ i : Fin d, G.getD i 0 * X.mulVec q i = ∑ i : Fin d, ∑ j : Fin d, G.getD i 0 * X i j * z s (Fin.castAdd d j) := by
      refine Finset.sum_congr rfl fun i _ => ?_
      rw [Matrix.mulVec, dotProduct, Finset.mul_sum]
      exact Finset.sum_congr rfl fun j _ => by rw [hq]; ring
    have e2 : ∑ i : Fin d, G.getD (d + i) 0 * X.transpose.mulVec p i = ∑ i : Fin d, ∑ j : Fin d, z s (Fin.natAdd d i) * X i j * G.getD (d + j) 0 := by
      rw [Finset.sum_comm]
      refine Finset.sum_congr rfl fun i _ => ?_
      rw [Matrix.mulVec, dotProduct, Finset.mul_sum]
      exact Finset.sum_congr rfl fun j _ => by rw [hp, Matrix.transpose_apply]; ring
    rw [e1, e2] at hinf
    rw [← neg_eq_zero]
    refine Eq.trans ?_ hinf
    rw [← Finset.sum_neg_distrib, ← Finset.sum_sub_distrib]
    refine Finset.sum_congr rfl fun i _ => ?_
    rw [← Finset.sum_neg_distrib, ← Finset.sum_sub_distrib]
    exact Finset.sum_congr rfl fun j _ => by ring
  refine constant_of_has_deriv_right_zero (f := fun t => ∑ i : Fin d, ∑ j : Fin d, z t (Fin.natAdd d i) * X i j * z t (Fin.castAdd d j))
    (a := ts.headD 0) (b := t) ?_ hder t ⟨hts t ht, le_rfl⟩
  have hc := solves_continuousOn (h2 t ht)
  rw [continuousOn_pi] at hc
  exact continuousOn_finsetSum _ fun i _ => continuousOn_finsetSum _ fun j _ => ((hc _).mul continuousOn_const).mul (hc _)

/-- **C92, momenta.** If `H` is invariant under the one-parameter group of `X` (acting on positions by `exp(tX)` and on momenta by its inverse
transpose; for a rotation group both are the same rotation), then `p·Xq` is the same at all states of a rollout: angular momentum for
rotations. -/
theorem C92_momentum (hg : IsGrad (d + d) H grad) (ho : odeint.Exact (d + d) (total fun z _ => hamiltonianDynamics grad z) ts) (hts : Forward ts)
    (X : Matrix (Fin d) (Fin d) ℝ)
    (hX : ∀ (t : ℝ) (q p : Fin d → ℝ), H (List.ofFn ((NormedSpace.exp (t • X)).mulVec q) ++ List.ofFn ((NormedSpace.exp (t • (-X.transpose))).mulVec p)) =
      H (List.ofFn q ++ List.ofFn p)) {z0 : List ℝ} (hz : z0.length = d + d) {zs : List (List ℝ)} (h : hamiltonianFlow odeint grad z0 ts = .ok zs) :
    ∀ z ∈ zs, momentum X z = momentum X z0 := by
  unfold hamiltonianFlow at h
  rw [dynamics_ok hg hz] at h
  rw [← Except.ok.inj h]
  exact Rollout.momentum hg hts X hX (ho (fun _ _ _ => rfl) z0 hz)

end

/-! ## C93: batches -/

theorem getD_rowsOf {α : Type} (n k : ℕ) (l : List α) (b : ℕ) (hb : b < k) : (rowsOf n k l).getD b [] = (l.drop (b * n)).take n := by
  induction k generalizing l b with
  | zero => omega
  | succ k ih =>
    cases b with
    | zero => simp [rowsOf]
    | succ b =>
      rw [rowsOf, getD_cons_succ, ih _ _ (by omega), drop_drop]
      congr 2
      ring

theorem length_rowsOf {α : Type} (n k : ℕ) (l : List α) : (rowsOf n k l).length = k := by
  induction k generalizing l with
  | zero => rfl
  | succ k ih => simp [rowsOf, ih]

theorem length_flatten_uniform {n : ℕ} {L : List (List ℝ)} (h : ∀ r ∈ L, r.length = n) : L.flatten.length = L.length * n := by
  induction L with
  | nil => simp
  | cons r L ih =>
    rw [flatten_cons, length_append, h r (by simp), ih fun r hr => h r (by simp [hr]), length_cons]
    ring

theorem getD_flatten_uniform {n : ℕ} {L : List (List ℝ)} (h : ∀ r ∈ L, r.length = n) {b i : ℕ} (hb : b < L.length) (hi : i < n) :
    L.flatten.getD (b * n + i) 0 = (L.getD b []).getD i 0 := by
  induction L generalizing b with
  | nil => simp at hb
  | cons r L ih =>
    have hr : r.length = n := h r (by simp)
    rw [flatten_cons]
    cases b with
    | zero => rw [Nat.zero_mul, Nat.zero_add, getD_append _ _ _ _ (by omega), getD_cons_zero]
    | succ b =>
      rw [getD_append_right _ _ _ _ (by rw [hr]; nlinarith), getD_cons_succ, ← ih (fun r hr => h r (by simp [hr])) (by simpa using hb)]
      congr 1
      rw [hr, Nat.succ_mul]; omega

theorem rowsOf_flatten {n : ℕ} {L : List (List ℝ)} (h : ∀ r ∈ L, r.length = n) : rowsOf n L.length L.flatten = L := by
  induction L with
  | nil => rfl
  | cons r L ih =>
    have hr : r.length = n := h r (by simp)
    rw [length_cons, rowsOf, flatten_cons, take_append_of_le_length (by omega), take_of_length_le (by omega), drop_append_of_le_length (by omega),
      drop_of_length_le (by omega), nil_append, ih fun r hr => h r (by simp [hr])]

/-- **C93.** A batched rollout is the stack of the rollouts of its rows: shape `(bs,t,state_dim)`, and no row depends on the others. -/
theorem C93_batch {n : ℕ} {odeint : Odeint} {dynamics : List ℝ → ℝ → Py (List ℝ)} {ts : List ℝ} {z0 : List (List ℝ)}
    (hz : ∀ z ∈ z0, z.length = n) (hd : ∀ z t, z.length = n → ∃ v, dynamics z t = .ok v ∧ v.length = n)
    (hauto : ∀ z : List ℝ, z.length = n → ∀ t, dynamics z t = dynamics z 0) (hL : LocallyLipschitz (asMap n fun z => total dynamics z 0)) (hts : Forward ts) (ho : odeint.Exact n (total dynamics) ts)
    (hb : odeint.Exact (z0.length * n) (fun y t => ((rowsOf n z0.length y).map fun z => total dynamics z t).flatten) ts) :
    bOdeFlow odeint dynamics n z0 ts = .ok (z0.map fun z => odeint (total dynamics) z ts) := by
  have htr : ∃ vs, (z0.mapM fun z => dynamics z 0) = Except.ok vs := by
    clear hb
    induction z0 with
    | nil => exact ⟨[], rfl⟩
    | cons z z0 ih =>
      obtain ⟨v, hv, -⟩ := hd z 0 (hz z (by simp))
      obtain ⟨vs, hvs⟩ := ih fun z h => hz z (by simp [h])
      exact ⟨v :: vs, by rw [mapM_cons, hv, hvs]; rfl⟩
  obtain ⟨vs, hvs⟩ := htr
  unfold bOdeFlow
  rw [hvs]
  show Except.ok _ = _
  congr 1
  unfold odeint2 transpose102
  have hauto' : ∀ z : List ℝ, z.length = n → ∀ t, total dynamics z t = total dynamics z 0 := fun z h t => by rw [total, hauto z h t]; rfl
  obtain ⟨Z, h1, h2, h3⟩ := hb (fun y hy t => by
    dsimp only
    congr 1
    refine map_congr_left fun z hz' => hauto' z ?_ t
    obtain ⟨c, hc, rfl⟩ := List.getElem_of_mem hz'
    have hc' : c < z0.length := by rwa [length_rowsOf] at hc
    have h := getD_rowsOf n z0.length y c hc'
    rw [getD_eq_getElem _ _ hc] at h
    have h1 : (c + 1) * n ≤ z0.length * n := Nat.mul_le_mul_right _ hc'
    have h2 : (c + 1) * n = c * n + n := by ring
    rw [h, length_take, length_drop]
    omega) z0.flatten (length_flatten_uniform hz)
  rw [h3, map_map]
  have hlen : ∀ z, z.length = n → (total dynamics z 0).length = n := by
    intro z h
    obtain ⟨v, e, l⟩ := hd z 0 h
    rw [total, e]; exact l
  -- the rows of the flat solution
  have hi : ∀ {b : ℕ} (_ : b < z0.length) (i : Fin n), b * n + i < z0.length * n := fun {b} hb i => by
    have := i.2
    calc b * n + i < b * n + n := by omega
      _ = (b + 1) * n := by ring
      _ ≤ z0.length * n := Nat.mul_le_mul_right _ hb
  have hrow : ∀ {b : ℕ} (hb : b < z0.length) (t : ℝ),
      (rowsOf n z0.length (List.ofFn (Z t))).getD b [] = List.ofFn fun i : Fin n => Z t ⟨b * n + i, hi hb i⟩ := by
    intro b hb t
    rw [getD_rowsOf _ _ _ _ hb]
    refine DMat.vec_ext ?_ fun i hi' => ?_
    · rw [length_take, length_drop, length_ofFn, length_ofFn]
      have : (b + 1) * n ≤ z0.length * n := Nat.mul_le_mul_right _ hb
      have : (b + 1) * n = b * n + n := by ring
      omega
    · have hin : i < n := lt_of_lt_of_le hi' (by rw [length_take]; exact min_le_left _ _)
      rw [getD_ofFn _ ⟨i, hin⟩, getD_eq_getElem _ _ hi', getElem_take, getElem_drop, List.getElem_ofFn]
  refine ext_getElem (by simp) fun b hb1 hb2 => ?_
  have hb' : b < z0.length := by simpa using hb1
  rw [getElem_map, getElem_map, getElem_range, map_map]
  refine C92_unique hL hts ?_ (ho hauto' (z0[b]) (hz _ (getElem_mem hb')))
  refine ⟨fun t i => Z t ⟨b * n + i, hi hb' i⟩, ?_, ?_, ?_⟩
  · rw [← hrow hb', h1, rowsOf_flatten hz, getD_eq_getElem _ _ hb']
  · intro c hc t ht
    rw [hasDerivWithinAt_pi]
    intro i
    have := hasDerivWithinAt_pi.1 (h2 c hc t ht) ⟨b * n + i, hi hb' i⟩
    refine this.congr_deriv ?_
    unfold asMap
    have hrl : ∀ r ∈ rowsOf n z0.length (List.ofFn (Z t)), r.length = n := by
      intro r hr
      obtain ⟨c, hc, rfl⟩ := List.getElem_of_mem hr
      rw [length_rowsOf] at hc
      have := hrow hc t
      rw [getD_eq_getElem _ _ (by rw [length_rowsOf]; exact hc)] at this
      rw [this, length_ofFn]
    have hml : ∀ r ∈ (rowsOf n z0.length (List.ofFn (Z t))).map (fun z => total dynamics z 0), r.length = n := by
      intro r hr
      obtain ⟨z, hz, rfl⟩ := mem_map.1 hr
      exact hlen z (hrl z hz)
    rw [getD_flatten_uniform hml (by rw [length_map, length_rowsOf]; exact hb') i.2]
    have hm : ((rowsOf n z0.length (List.ofFn (Z t))).map fun z => total dynamics z 0).getD b [] =
        total dynamics (List.ofFn fun i : Fin n => Z t ⟨b * n + i, hi hb' i⟩) 0 := by
      rw [getD_eq_getElem _ _ (by rw [length_map, length_rowsOf]; exact hb'), getElem_map, ← hrow hb' t,
        getD_eq_getElem _ _ (by rw [length_rowsOf]; exact hb')]
    rw [hm]
  · refine map_congr_left fun t _ => ?_
    exact hrow hb' t

/-- **C93, Hamiltonian.** `BHamiltonianFlow` returns, for each row of the batch, what `HamiltonianFlow` returns for it. -/
theorem C93_hamiltonian {d : ℕ} {H : List ℝ → ℝ} {grad : List ℝ → List ℝ} {odeint : Odeint} {ts : List ℝ} {z0 : List (List ℝ)}
    (hg : IsGrad (d + d) H grad) (hz : ∀ z ∈ z0, z.length = d + d)
    (hL : LocallyLipschitz (asMap (d + d) fun x => total (fun z _ => hamiltonianDynamics grad z) x 0)) (hts : Forward ts)
    (ho : odeint.Exact (d + d) (total fun z _ => hamiltonianDynamics grad z) ts)
    (hb : odeint.Exact (z0.length * (d + d)) (fun y t => ((rowsOf (d + d) z0.length y).map fun z => total (fun z _ => hamiltonianDynamics grad z) z t).flatten) ts) :
    ∃ zs, bHamiltonianFlow odeint grad (d + d) z0 ts = .ok zs ∧ zs.length = z0.length ∧
      ∀ b < z0.length, hamiltonianFlow odeint grad (z0.getD b []) ts = .ok (zs.getD b []) := by
  have hd : ∀ (z : List ℝ) (t : ℝ), z.length = d + d → ∃ v, (fun z _ => hamiltonianDynamics grad z) z t = Except.ok v ∧ v.length = d + d :=
    fun z _ h => ⟨_, dynamics_ok hg h, by simp [sympMat, DMat.of]⟩
  refine ⟨_, C93_batch hz hd (fun _ _ _ => rfl) hL hts ho hb, by simp, fun b hb' => ?_⟩
  rw [getD_eq_getElem _ _ hb', getD_eq_getElem _ _ (by simpa using hb'), getElem_map]
  unfold hamiltonianFlow
  rw [dynamics_ok hg (hz _ (getElem_mem hb'))]
  rfl

/-- **C92, neural ODEs.** If the network of an `EMLPode` (or `MLPode`) commutes with a matrix, then the batched rollout of the
transformed states consists of the transformed rollouts. -/
theorem C92_ode_network {n : ℕ} {odeint : Odeint} {network : List ℝ → Py (List ℝ)} {ts : List ℝ} {z0 : List (List ℝ)} {M : DMat ℝ} (hM : M.IsSq n)
    (hnet : ∀ x : List ℝ, x.length = n → ∃ y, network x = .ok y ∧ y.length = n ∧ network (M.mulVec x) = .ok (M.mulVec y)) (hz : ∀ z ∈ z0, z.length = n)
    (hL : LocallyLipschitz (asMap n fun z => total (odeNet network) z 0)) (hts : Forward ts) (ho : odeint.Exact n (total (odeNet network)) ts)
    (hb : odeint.Exact (z0.length * n) (fun y t => ((rowsOf n z0.length y).map fun z => total (odeNet network) z t).flatten) ts) :
    ∃ zs, bOdeFlow odeint (odeNet network) n z0 ts = .ok zs ∧ zs.length = z0.length ∧
      bOdeFlow odeint (odeNet network) n (z0.map M.mulVec) ts = .ok (zs.map fun traj => traj.map M.mulVec) := by
  have hd : ∀ z t, z.length = n → ∃ v, odeNet network z t = .ok v ∧ v.length = n := fun z t h => by
    obtain ⟨y, h1, h2, -⟩ := hnet z h
    exact ⟨y, h1, h2⟩
  refine ⟨_, C93_batch hz hd (fun _ _ _ => rfl) hL hts ho hb, by simp, ?_⟩
  rw [C93_batch (z0 := z0.map M.mulVec) (fun z h => ?_) hd (fun _ _ _ => rfl) hL hts ho (by rw [length_map]; exact hb), map_map, map_map]
  · congr 1
    refine map_congr_left fun z h => ?_
    refine C92_equivariant ho hts (fun _ _ _ => rfl) hL hM (fun x hx => ?_) (hz z h)
    obtain ⟨y, h1, h2, h3⟩ := hnet x hx
    unfold total odeNet
    rw [h1, h3]
    exact ⟨h2, rfl⟩
  · obtain ⟨z', -, rfl⟩ := mem_map.1 h
    rw [DMat.length_mulVec, hM.1]

end Verif
