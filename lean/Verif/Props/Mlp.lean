import Verif.Lemmas.Mlp
import Verif.Props.SmoothDynamics

/-!
# C114: the baseline networks
-/
namespace Verif
open List Set

section
variable {W : World} {g : Gid} {N : ℕ} {ein eout : Expr} {rin rout : Rep} {sg : Option Gid}

/-- **C114, shapes.** In every front end `MLP(rep_in,rep_out,group,ch,num_layers)` returns a network with the layers
`size(rep_in) → ch → … → ch → size(rep_out)`: of the representations and the group only these sizes matter.  With parameters of these shapes, on a batch
of inputs of the size of `rep_in` it returns as many outputs of the size of `rep_out`, each the function `mlpVec` of the input in its
row: the same function in all front ends, with the weights transposed for torch. -/
theorem C114_mlp (hW : W.SingleOK g N) (hin : RepArg W g N ein rin) (hout : RepArg W g N eout rout) (hs : SgOK W g sg) (F : FrontEnd) (ch L : ℕ) :
    ∃ M sg', F.mlp W rin rout g ch L sg = .ok (M, sg') ∧ SgOK W g sg' ∧ M.layers (ein.dim W g) = layerWidths (ein.dim W g) (replicate L ch) (eout.dim W g) ∧
      ∀ {R : Type} [CommRing R] (act : R → R) (ps : List (DenseP R)), Forall₂ F.DenseShaped ps (M.layers (ein.dim W g)) →
        Rowwise (ein.dim W g) (eout.dim W g) (F.mlpApply act ps) (mlpVec act (ps.map F.store)) := by
  suffices h : ∃ M sg', F.mlp W rin rout g ch L sg = .ok (M, sg') ∧ SgOK W g sg' ∧ M.layers (ein.dim W g) = layerWidths (ein.dim W g) (replicate L ch) (eout.dim W g) by
    obtain ⟨M, sg', h1, h2, h3⟩ := h
    exact ⟨M, sg', h1, h2, h3, fun act ps hp => mlp_rowwise F act _ _ _ ps (h3 ▸ hp)⟩
  cases F with
  | objax | torch =>
    obtain ⟨a, sg1, a1, a2, -, a3, -⟩ := hin.call hW hs
    obtain ⟨o, sg2, o1, o2, -, o3, -⟩ := hout.call hW a2
    refine ⟨⟨some (a.size W), replicate L ch, o.size W⟩, sg2, ?_, o2, ?_⟩
    · show (Rep.call (W.setG sg) (some g) sg rin >>= fun p => Rep.call (W.setG p.2) (some g) p.2 rout >>= fun q => _) = _
      rw [a1]
      show (Rep.call (W.setG sg1) (some g) sg1 rout >>= fun q => _) = _
      rw [o1]; rfl
    · rw [Mlp.layers_eq, a3, o3]; rfl
  | flax | haiku =>
    obtain ⟨o, sg2, o1, o2, -, o3, -⟩ := hout.call hW hs
    refine ⟨⟨none, replicate L ch, o.size W⟩, sg2, ?_, o2, ?_⟩
    · show (Rep.call (W.setG sg) (some g) sg rout >>= fun q => _) = _
      rw [o1]; rfl
    · rw [Mlp.layers_eq, o3]; rfl

end

/-- **C114, a wrong size raises.** On inputs of another size the network raises, in every front end. -/
theorem C114_wrong_size {R : Type} [CommRing R] (F : FrontEnd) (act : R → R) {n m : ℕ} {hs : List ℕ} {ps : List (DenseP R)}
    (hp : Forall₂ F.DenseShaped ps (layerWidths n hs m)) {X : DMat R} (hX : X.cols ≠ n) : ∃ e, F.mlpApply act ps X = .error e := by
  have key : ∀ (p : DenseP R) (w : ℕ), F.DenseShaped p (n, w) → ∃ e, F.dense p X = .error e := by
    rintro p w ⟨-, hw⟩
    cases F with
    | torch =>
      simp only [if_true] at hw
      exact ⟨_, if_neg fun h => hX (h.1.trans hw.2)⟩
    | objax | flax | haiku =>
      simp only [reduceCtorEq, if_false] at hw
      exact ⟨_, if_neg fun h => hX (h.1.trans hw.1)⟩
  cases hs with
  | nil =>
    cases hp with
    | cons h1 h2 => cases h2; exact key _ _ h1
  | cons w hs =>
    cases hp with
    | cons h1 h2 =>
      obtain ⟨e, he⟩ := key _ _ h1
      rename_i p t
      cases t with
      | nil => cases hs <;> cases h2
      | cons q t => exact ⟨e, by show (F.dense p X >>= _) = _; rw [he]; rfl⟩

section
variable {T : Type*} [NormedAddCommGroup T] [NormedSpace ℝ T] {k : WithTop ℕ∞}

/-- **C114, smoothness.** The output depends on the input and all parameters jointly as smoothly as the activation; whether the call raises
does not depend on their values. -/
theorem C114_smooth {act : ℝ → ℝ} (hact : ContDiff ℝ k act) {ps : List (T → DenseP ℝ)} (hps : ∀ p ∈ ps, SmoothDense k p) {d : ℕ} {x : T → List ℝ} (hx : SmoothVec k d x) :
    SmoothCall k fun t => mlpVec act (ps.map fun p => p t) (x t) := SmoothCall.mlp hact ps hps hx

end

section
variable {n m : ℕ} {hs : List ℕ} {ps : List (DenseP ℝ)}

/-- **C114, Lipschitz.** The network is Lipschitz on the whole space, with constant the product of the Frobenius norms of its weights times 2 for
each hidden layer. -/
theorem C114_lipschitz (hp : Forall₂ FrontEnd.objax.DenseShaped ps (layerWidths n hs m)) {x x' : List ℝ} (hx : x.length = n) (hx' : x'.length = n) :
    ∃ y y', mlpVec Real.sigmoid ps x = .ok y ∧ mlpVec Real.sigmoid ps x' = .ok y' ∧
      dst y y' ≤ 2 ^ hs.length * (ps.map fun p => nrm p.w.transpose.flat).prod * dst x x' := by
  obtain ⟨y, h1, -⟩ := mlpVec_ok Real.sigmoid hs n m ps hp x hx
  obtain ⟨y', h2, -⟩ := mlpVec_ok Real.sigmoid hs n m ps hp x' hx'
  refine ⟨y, y', h1, h2, ?_⟩
  have hl : ps.length - 1 = hs.length := by
    rw [hp.length_eq]
    clear hp hx hx' h1 h2
    induction hs generalizing n with
    | nil => rfl
    | cons h t ih =>
      have := ih (n := h)
      have h0 : 0 < (layerWidths h t m).length := by cases t <;> simp [layerWidths]
      show (layerWidths h t m).length + 1 - 1 = t.length + 1
      omega
  have := mlpVec_lipschitz hs n m ps hp x x' y y' hx hx' h1 h2
  rwa [lipConst, hl] at this

/-- The network as a function. -/
theorem exists_mlpFun {act : ℝ → ℝ} {k : WithTop ℕ∞} (hact : ContDiff ℝ k act) (hp : Forall₂ FrontEnd.objax.DenseShaped ps (layerWidths n hs m)) :
    ∃ f : List ℝ → List ℝ, (∀ x, x.length = n → mlpVec act ps x = .ok (f x) ∧ (f x).length = m) ∧
      ∀ i, ContDiff ℝ k fun v : Fin n → ℝ => (f (List.ofFn v)).getD i 0 := by
  have hok := fun x hx => mlpVec_ok act hs n m ps hp x hx
  obtain ⟨f, hf⟩ : ∃ f : List ℝ → List ℝ, f = fun x => (mlpVec act ps x).toOption.getD [] := ⟨_, rfl⟩
  have h1 : ∀ x, x.length = n → mlpVec act ps x = .ok (f x) ∧ (f x).length = m := fun x hx => by
    obtain ⟨y, e, l⟩ := hok x hx
    have : f x = y := by rw [hf]; beta_reduce; rw [e]; rfl
    rw [this]; exact ⟨e, l⟩
  refine ⟨f, h1, fun i => ?_⟩
  have h := C114_smooth (T := Fin n → ℝ) hact (ps := ps.map fun p _ => p)
    (fun p hp => by
      obtain ⟨q, -, rfl⟩ := mem_map.1 hp
      exact ⟨⟨_, _, SmoothMat.const q.w⟩, _, SmoothVec.const q.b⟩) (SmoothVec.ofFn (k := k) n)
  simp only [map_map, Function.comp_def, map_id'] at h
  rcases h with ⟨l, y, hy, h⟩ | ⟨e, h⟩
  · have : ∀ v : Fin n → ℝ, f (List.ofFn v) = y v := fun v => by
      have a := (h1 (List.ofFn v) (by simp)).1
      exact Except.ok.inj (a.symm.trans (h v))
    simp only [this]
    exact hy.2 i
  · exact absurd ((h1 (List.ofFn fun _ : Fin n => 0) (by simp)).1.symm.trans (h _)) (by simp)

theorem nrm_ofFn_le (v : Fin n → ℝ) : nrm (List.ofFn v) ≤ n * ‖v‖ := by
  have h : nrm (List.ofFn v) ≤ √((n * ‖v‖) ^ 2) := by
    refine Real.sqrt_le_sqrt ?_
    unfold nrm2
    rw [length_ofFn]
    have : ∀ i ∈ Finset.range n, ‖(List.ofFn v).getD i 0‖ ^ 2 ≤ ‖v‖ ^ 2 := fun i hi => by
      have hi' := Finset.mem_range.1 hi
      rw [show (List.ofFn v).getD i 0 = v ⟨i, hi'⟩ from getD_ofFn v ⟨i, hi'⟩]
      exact pow_le_pow_left₀ (norm_nonneg _) (norm_le_pi_norm v _) 2
    refine (Finset.sum_le_sum this).trans ?_
    rw [Finset.sum_const, Finset.card_range, nsmul_eq_mul, mul_pow]
    refine mul_le_mul_of_nonneg_right ?_ (sq_nonneg _)
    rcases Nat.eq_zero_or_pos n with rfl | h
    · simp
    · have : (1 : ℝ) ≤ n := by exact_mod_cast h
      nlinarith
  rwa [Real.sqrt_sq (by positivity)] at h

theorem contDiff_sigmoid' {k : WithTop ℕ∞} : ContDiff ℝ k Real.sigmoid := contDiff_sigmoid.of_le le_top

/-- **C114, `MLPode`.** The field of an `MLPode`, with any parameters, is locally Lipschitz and has a rollout from every state at all times, and
only one at forward times; an integrator that returns the rollout makes `BOdeFlow` return it, for every batch. -/
theorem C114_mlpode (hp : Forall₂ FrontEnd.objax.DenseShaped ps (layerWidths n hs n)) :
    LocallyLipschitz (asMap n fun z => total (odeNet (mlpVec Real.sigmoid ps)) z 0) ∧
    (∀ (z0 : List ℝ) (ts : List ℝ), z0.length = n → ∃ zs, Rollout n (fun z => total (odeNet (mlpVec Real.sigmoid ps)) z 0) z0 ts zs ∧
      (Forward ts → ∀ ws, Rollout n (fun z => total (odeNet (mlpVec Real.sigmoid ps)) z 0) z0 ts ws → ws = zs)) ∧
    ∀ (odeint : Odeint) (ts : List ℝ) (z0 : List (List ℝ)), (∀ z ∈ z0, z.length = n) →
      odeint.Sound (z0.length * n) (fun y t => ((rowsOf n z0.length y).map fun z => total (odeNet (mlpVec Real.sigmoid ps)) z t).flatten) ts →
      ∃ zs, Forall₂ (fun z traj => Rollout n (fun z => total (odeNet (mlpVec Real.sigmoid ps)) z 0) z ts traj) z0 zs ∧
        bOdeFlow odeint (odeNet (mlpVec Real.sigmoid ps)) n z0 ts = .ok zs := by
  obtain ⟨f, hf, hsm⟩ := exists_mlpFun (k := 1) contDiff_sigmoid' hp
  have ht : ∀ z : List ℝ, z.length = n → ∀ t, total (odeNet (mlpVec Real.sigmoid ps)) z t = f z := fun z hz t => by
    rw [total, odeNet, (hf z hz).1]; rfl
  have hv : ∀ (v : Fin n → ℝ) (i : Fin n), asMap n (fun z => total (odeNet (mlpVec Real.sigmoid ps)) z 0) v i = (f (List.ofFn v)).getD i 0 := fun v i => by
    rw [asMap, ht _ (by simp)]
  have hC : ContDiff ℝ 1 (asMap n fun z => total (odeNet (mlpVec Real.sigmoid ps)) z 0) := by
    rw [contDiff_pi]
    intro i
    simp only [hv]
    exact hsm i
  have hg : ∀ v, ‖asMap n (fun z => total (odeNet (mlpVec Real.sigmoid ps)) z 0) v‖ ≤ nrm (f (replicate n 0)) + lipConst ps * n * ‖v‖ := by
    intro v
    have h0 : 0 ≤ nrm (f (replicate n 0)) + lipConst ps * n * ‖v‖ :=
      add_nonneg (nrm_nonneg _) (mul_nonneg (mul_nonneg (lipConst_nonneg ps) (by positivity)) (norm_nonneg v))
    refine (pi_norm_le_iff_of_nonneg h0).2 fun i => ?_
    rw [hv, Real.norm_eq_abs]
    have l0 : (replicate n (0 : ℝ)).length = n := by simp
    have lv : (List.ofFn v).length = n := by simp
    have a1 := abs_getD_le (hf _ lv).2 i
    have a2 := mlpVec_lipschitz hs n n ps hp _ _ _ _ lv l0 (hf _ lv).1 (hf _ l0).1
    have a3 := dst_triangle (z := replicate n 0) (hf _ lv).2 (hf _ l0).2
    rw [dst_zero] at a2
    rw [dst_zero, dst_zero] at a3
    have a4 := mul_le_mul_of_nonneg_left (nrm_ofFn_le v) (lipConst_nonneg ps)
    linarith
  have hr : ∀ (z0 ts : List ℝ), z0.length = n → ∃ zs, Rollout n (fun z => total (odeNet (mlpVec Real.sigmoid ps)) z 0) z0 ts zs := fun z0 ts hz =>
    exists_rollout_global hC (nrm_nonneg _) (mul_nonneg (lipConst_nonneg ps) (by positivity)) hg hz ts
  refine ⟨hC.locallyLipschitz, fun z0 ts hz => ?_, fun odeint ts z0 hz ho => ?_⟩
  · obtain ⟨zs, h⟩ := hr z0 ts hz
    exact ⟨zs, h, fun hts ws hw => C92_unique hC.locallyLipschitz hts hw h⟩
  · obtain ⟨zs, h⟩ : ∃ zs, Forall₂ (fun z traj => Rollout n (fun z => total (odeNet (mlpVec Real.sigmoid ps)) z 0) z ts traj) z0 zs := by
      clear ho
      induction z0 with
      | nil => exact ⟨[], .nil⟩
      | cons z z0 ih =>
        obtain ⟨a, ha⟩ := hr z ts (hz z (by simp))
        obtain ⟨b, hb⟩ := ih fun z h => hz z (by simp [h])
        exact ⟨a :: b, .cons ha hb⟩
    exact ⟨zs, h, bOdeFlow_sound (fun z t hz => ⟨f z, (hf z hz).1, (hf z hz).2⟩ ) (fun z _ t => rfl) ho h⟩

theorem sum_getD_range (l : List ℝ) : l.sum = ∑ i ∈ Finset.range l.length, l.getD i 0 := by
  induction l with
  | nil => simp
  | cons a l ih => rw [sum_cons, ih, length_cons, Finset.sum_range_succ', add_comm]; simp

/-- **C114, `MLPH`.** The energy of an `MLPH` on `ℝ^(2d)`, with any parameters, is defined and differentiable everywhere; its Hamiltonian field has a rollout
from every state at all times, only one at forward times; `HamiltonianFlow` returns it, if the integrator does, and the energy is constant along it. -/
theorem C114_mlph {d : ℕ} (hp : Forall₂ FrontEnd.objax.DenseShaped ps (layerWidths (d + d) hs m)) :
    ∃ H : List ℝ → ℝ, (∀ x : List ℝ, x.length = d + d → hamiltonianNet (mlpVec Real.sigmoid ps) x = .ok (H x)) ∧ (∃ grad, IsGrad (d + d) H grad) ∧
    ∀ grad, IsGrad (d + d) H grad → LocallyLipschitz (asMap (d + d) fun x => total (fun z _ => hamiltonianDynamics grad z) x 0) ∧
      ∀ (z0 ts : List ℝ), z0.length = d + d → ∃ zs, Rollout (d + d) (fun z => total (fun z _ => hamiltonianDynamics grad z) z 0) z0 ts zs ∧
        (Forward ts → (∀ ws, Rollout (d + d) (fun z => total (fun z _ => hamiltonianDynamics grad z) z 0) z0 ts ws → ws = zs) ∧ ∀ z ∈ zs, H z = H z0) ∧
        ∀ odeint : Odeint, odeint.Sound (d + d) (total fun z _ => hamiltonianDynamics grad z) ts → hamiltonianFlow odeint grad z0 ts = .ok zs := by
  obtain ⟨f, hf, hsm⟩ := exists_mlpFun (k := 2) contDiff_sigmoid' hp
  have hH : ∀ x : List ℝ, x.length = d + d → hamiltonianNet (mlpVec Real.sigmoid ps) x = .ok (f x).sum := fun x hx => by
    rw [hamiltonianNet, (hf x hx).1]; rfl
  have hse : (fun v : Fin (d + d) → ℝ => (f (List.ofFn v)).sum) = fun v => ∑ i ∈ Finset.range m, (f (List.ofFn v)).getD i 0 := by
    funext v
    rw [sum_getD_range, (hf _ (by simp)).2]
  have hHs : ContDiff ℝ 2 fun v : Fin (d + d) → ℝ => (f (List.ofFn v)).sum := by
    rw [hse]
    exact ContDiff.sum fun i _ => hsm i
  have hHd : Differentiable ℝ fun v : Fin (d + d) → ℝ => (f (List.ofFn v)).sum := hHs.differentiable (by norm_num)
  obtain ⟨C, hC0, hC⟩ : ∃ C : ℝ, 0 ≤ C ∧ ∀ v, ‖fderiv ℝ (fun v : Fin (d + d) → ℝ => (f (List.ofFn v)).sum) v‖ ≤ C := by
    have hL0 : 0 ≤ m * (lipConst ps * (d + d : ℕ)) := mul_nonneg (by positivity) (mul_nonneg (lipConst_nonneg ps) (by positivity))
    refine ⟨m * (lipConst ps * (d + d : ℕ)), hL0, fun v => ?_⟩
    refine norm_fderiv_le_of_lip' ℝ (x₀ := v) hL0 (Filter.Eventually.of_forall fun u => ?_)
    have lu : (List.ofFn u).length = d + d := by simp
    have lv : (List.ofFn v).length = d + d := by simp
    rw [congrFun hse u, congrFun hse v, ← Finset.sum_sub_distrib, mul_assoc]
    refine (norm_sum_le _ _).trans ?_
    have hd : dst (List.ofFn u) (List.ofFn v) ≤ (d + d : ℕ) * ‖u - v‖ := by
      have : dst (List.ofFn u) (List.ofFn v) = nrm (List.ofFn (u - v)) := by
        unfold dst nrm dist2 nrm2
        rw [length_ofFn, length_ofFn]
        congr 1
        refine Finset.sum_congr rfl fun i hi => ?_
        have hi' := Finset.mem_range.1 hi
        rw [show (List.ofFn u).getD i 0 = u ⟨i, hi'⟩ from getD_ofFn u ⟨i, hi'⟩, show (List.ofFn v).getD i 0 = v ⟨i, hi'⟩ from getD_ofFn v ⟨i, hi'⟩,
          show (List.ofFn (u - v)).getD i 0 = (u - v) ⟨i, hi'⟩ from getD_ofFn (u - v) ⟨i, hi'⟩]
        rfl
      rw [this]
      exact nrm_ofFn_le _
    have a2 := mlpVec_lipschitz hs _ m ps hp _ _ _ _ lu lv (hf _ lu).1 (hf _ lv).1
    have hall : ∀ i ∈ Finset.range m, ‖(f (List.ofFn u)).getD i 0 - (f (List.ofFn v)).getD i 0‖ ≤ lipConst ps * (d + d : ℕ) * ‖u - v‖ := fun i hi => by
      have hi' := Finset.mem_range.1 hi
      have a1 : ‖(f (List.ofFn u)).getD i 0 - (f (List.ofFn v)).getD i 0‖ ≤ dst (f (List.ofFn u)) (f (List.ofFn v)) := by
        unfold dst dist2
        refine Real.le_sqrt_of_sq_le ?_
        rw [(hf _ lu).2]
        exact Finset.single_le_sum (f := fun i => ‖(f (List.ofFn u)).getD i 0 - (f (List.ofFn v)).getD i 0‖ ^ 2) (fun _ _ => sq_nonneg _) hi
      have := mul_le_mul_of_nonneg_left hd (lipConst_nonneg ps)
      linarith
    refine (Finset.sum_le_card_nsmul _ _ _ hall).trans ?_
    rw [Finset.card_range, nsmul_eq_mul]
  refine ⟨fun x => (f x).sum, hH, ⟨gradOf (d + d) _, fun x _ => gradOf_spec hHd.differentiableAt⟩, fun grad hgr => ?_⟩
  have hF := gradField_smooth hgr hHs
  have hent : ∀ (v : Fin (d + d) → ℝ) (j : Fin (d + d)), |(grad (List.ofFn v)).getD j 0| ≤ C := by
    intro v j
    obtain ⟨-, L, hL, hv⟩ := hgr (List.ofFn v) (by simp)
    rw [show (fun i : Fin (d + d) => (List.ofFn v).getD i 0) = v from funext fun i => getD_ofFn _ i] at hL
    have e : (grad (List.ofFn v)).getD j 0 = L (Pi.single j 1) := by rw [hv]; simp [Pi.single_apply]
    rw [e, ← Real.norm_eq_abs]
    refine (L.le_opNorm _).trans ?_
    rw [Pi.norm_single, norm_one, mul_one, ← hL.fderiv]
    exact hC v
  have hg : ∀ v, ‖asMap (d + d) (fun x => total (fun z _ => hamiltonianDynamics grad z) x 0) v‖ ≤ C + 0 * ‖v‖ := by
    intro v
    rw [zero_mul, add_zero]
    refine (pi_norm_le_iff_of_nonneg hC0).2 fun i => ?_
    unfold asMap
    beta_reduce
    rw [total_ok hgr (by simp), DMat.getD_mulVec (by exact i.2), Real.norm_eq_abs]
    have hcol : (sympMat d).cols = d + d := rfl
    rw [hcol]
    have hi := i.2
    by_cases h : i.1 < d
    · rw [Finset.sum_eq_single (i.1 + d)]
      · rw [sympMat, DMat.of_e hi (by omega), if_pos h, if_pos rfl, one_mul]
        exact hent v ⟨i.1 + d, by omega⟩
      · intro j hj hne
        rw [sympMat, DMat.of_e hi (Finset.mem_range.1 hj), if_pos h, if_neg hne, zero_mul]
      · intro hj
        exact absurd (Finset.mem_range.2 (by omega)) hj
    · rw [Finset.sum_eq_single (i.1 - d)]
      · rw [sympMat, DMat.of_e hi (by omega), if_neg h, if_pos (by omega), neg_one_mul, abs_neg]
        exact hent v ⟨i.1 - d, by omega⟩
      · intro j hj hne
        rw [sympMat, DMat.of_e hi (Finset.mem_range.1 hj), if_neg h, if_neg (by omega), zero_mul]
      · intro hj
        exact absurd (Finset.mem_range.2 (by omega)) hj
  have hr : ∀ (z0 ts : List ℝ), z0.length = d + d → ∃ zs, Rollout (d + d) (fun z => total (fun z _ => hamiltonianDynamics grad z) z 0) z0 ts zs := fun z0 ts hz =>
    exists_rollout_global hF hC0 le_rfl hg hz ts
  refine ⟨hF.locallyLipschitz, fun z0 ts hz => ?_⟩
  obtain ⟨zs, h⟩ := hr z0 ts hz
  refine ⟨zs, h, fun hts => ⟨fun ws hw => C92_unique hF.locallyLipschitz hts hw h, Rollout.energy hgr hts h⟩, fun odeint ho => ?_⟩
  unfold hamiltonianFlow
  rw [dynamics_ok hgr h.length, ← ho (fun _ _ _ => rfl) _ _ h]
  rfl

/-- A layer whose first output is `s(v_i-c)`. -/
noncomputable def passLayer (n w i : ℕ) (s c : ℝ) : DenseP ℝ :=
  ⟨DMat.of n w fun a b => if a = i ∧ b = 0 then s else 0, (range w).map fun b => if b = 0 then -(s * c) else 0⟩

theorem passLayer_shaped (n w i : ℕ) (s c : ℝ) : FrontEnd.objax.DenseShaped (passLayer n w i s c) (n, w) := by
  refine ⟨by simp [passLayer], ?_⟩
  simp only [reduceCtorEq, if_false]
  exact ⟨rfl, rfl⟩

theorem passLayer_apply {n w i : ℕ} (hw : 0 < w) (hi : i < n) (s c : ℝ) (v : List ℝ) :
    (zipWith (· + ·) ((passLayer n w i s c).w.transpose.mulVec v) (passLayer n w i s c).b).getD 0 0 = s * (v.getD i 0 - c) := by
  rw [getD_eq_getElem _ _ (by rw [dense_length (passLayer_shaped n w i s c)]; exact hw), getElem_zipWith, ← getD_eq_getElem (d := 0), ← getD_eq_getElem (d := 0),
    DMat.getD_mulVec (by exact hw)]
  have e1 : (passLayer n w i s c).b.getD 0 0 = -(s * c) := by
    rw [getD_eq_getElem _ _ (by simpa [passLayer] using hw)]
    simp [passLayer]
  have hc : (passLayer n w i s c).w.transpose.cols = n := rfl
  rw [e1, hc, Finset.sum_eq_single i]
  · rw [DMat.transpose_e, passLayer, DMat.of_e hi hw]
    simp only [and_self, if_true]
    ring
  · intro a ha hne
    rw [DMat.transpose_e, passLayer, DMat.of_e (Finset.mem_range.1 ha) hw, if_neg (by simp [hne]), zero_mul]
  · intro h
    exact absurd (Finset.mem_range.2 hi) h

/-- Parameters for which the first output depends on the `i`-th input only. -/
theorem exists_pass (act : ℝ → ℝ) (hs : List ℕ) : (∀ w ∈ hs, 0 < w) → ∀ {n m i : ℕ}, 0 < m → i < n → ∀ s c : ℝ, ∃ ps, Forall₂ FrontEnd.objax.DenseShaped ps (layerWidths n hs m) ∧
    ∀ v : List ℝ, v.length = n → ∃ y, mlpVec act ps v = .ok y ∧ y.length = m ∧ y.getD 0 0 = (swish act)^[hs.length] (s * (v.getD i 0 - c)) := by
  induction hs with
  | nil =>
    intro _ n m i hm hi s c
    exact ⟨[passLayer n m i s c], .cons (passLayer_shaped _ _ _ _ _) .nil, fun v hv => ⟨_, denseVec_ok (passLayer_shaped n m i s c) hv, dense_length (passLayer_shaped n m i s c) v,
      passLayer_apply hm hi s c v⟩⟩
  | cons w hs ih =>
    intro hpos n m i hm hi s c
    have hw := hpos w (by simp)
    obtain ⟨ps, h1, h2⟩ := ih (fun w h => hpos w (by simp [h])) hm hw 1 0
    refine ⟨passLayer n w i s c :: ps, .cons (passLayer_shaped _ _ _ _ _) h1, fun v hv => ?_⟩
    obtain ⟨y, k1, k2, k3⟩ := h2 ((zipWith (· + ·) ((passLayer n w i s c).w.transpose.mulVec v) (passLayer n w i s c).b).map (swish act))
      ((length_map _).trans (dense_length (passLayer_shaped n w i s c) v))
    refine ⟨y, ?_, k2, ?_⟩
    · rw [mlpVec_cons _ _ (layerWidths_ne h1), denseVec_ok (passLayer_shaped n w i s c) hv]
      exact k1
    · have hl := dense_length (passLayer_shaped n w i s c) v
      rw [k3, one_mul, sub_zero, getD_eq_getElem _ _ (by rw [length_map, hl]; exact hw), getElem_map, ← getD_eq_getElem (d := 0), passLayer_apply hw hi]
      rfl

/-- Parameters for which the output is constant. -/
theorem exists_constant (act : ℝ → ℝ) (hs : List ℕ) : ∀ (n : ℕ) (y : List ℝ), ∃ ps, Forall₂ FrontEnd.objax.DenseShaped ps (layerWidths n hs y.length) ∧
    ∀ v : List ℝ, v.length = n → mlpVec act ps v = .ok y := by
  induction hs with
  | nil =>
    intro n y
    have hsh : FrontEnd.objax.DenseShaped (⟨DMat.zero n y.length, y⟩ : DenseP ℝ) (n, y.length) := by
      refine ⟨rfl, ?_⟩
      simp only [reduceCtorEq, if_false]
      exact ⟨rfl, rfl⟩
    refine ⟨_, .cons hsh .nil, fun v hv => (denseVec_ok hsh hv).trans ?_⟩
    congr 1
    refine DMat.vec_ext (by rw [dense_length hsh]) fun i hi => ?_
    rw [dense_length hsh] at hi
    rw [getD_eq_getElem _ _ (by rw [dense_length hsh]; exact hi), getElem_zipWith, ← getD_eq_getElem (d := 0), ← getD_eq_getElem (d := 0), DMat.getD_mulVec (by exact hi),
      Finset.sum_eq_zero fun j _ => by rw [DMat.transpose_e]; simp [DMat.zero, DMat.of], zero_add]
  | cons w hs ih =>
    intro n y
    obtain ⟨ps, h1, h2⟩ := ih w y
    refine ⟨passLayer n w 0 0 0 :: ps, .cons (passLayer_shaped _ _ _ _ _) h1, fun v hv => ?_⟩
    rw [mlpVec_cons _ _ (layerWidths_ne h1), denseVec_ok (passLayer_shaped n w 0 0 0) hv]
    exact h2 _ ((length_map _).trans (dense_length (passLayer_shaped n w 0 0 0) v))

theorem swish_iter_zero (k : ℕ) : (swish Real.sigmoid)^[k] 0 = 0 := by
  induction k with
  | zero => rfl
  | succ k ih => rw [Function.iterate_succ_apply, swish, mul_zero, ih]

theorem swish_iter_pos (k : ℕ) : ∀ {a : ℝ}, 0 < a → 0 < (swish Real.sigmoid)^[k] a := by
  induction k with
  | zero => exact fun h => h
  | succ k ih => exact fun h => ih (mul_pos (Real.sigmoid_pos _) h)

/-- **C114, baselines are not equivariant.** If an element acts as `A` on the inputs and `B` on the outputs and one of the two actions is not trivial, there are
parameters for which the network does not commute with it. -/
theorem C114_not_equivariant (hpos : ∀ w ∈ hs, 0 < w) (hm : 0 < m) {A B : DMat ℝ} (hA : A.rows = n)
    (h : (∃ x : List ℝ, x.length = n ∧ A.mulVec x ≠ x) ∨ ∃ y : List ℝ, y.length = m ∧ B.mulVec y ≠ y) :
    ∃ ps, Forall₂ FrontEnd.objax.DenseShaped ps (layerWidths n hs m) ∧ ∃ x y, x.length = n ∧ mlpVec Real.sigmoid ps x = .ok y ∧
      mlpVec Real.sigmoid ps (A.mulVec x) ≠ .ok (B.mulVec y) := by
  by_cases hB : ∃ y : List ℝ, y.length = m ∧ B.mulVec y ≠ y
  · obtain ⟨y, rfl, hy⟩ := hB
    obtain ⟨ps, h1, h2⟩ := exists_constant Real.sigmoid hs n y
    refine ⟨ps, h1, replicate n 0, y, by simp, h2 _ (by simp), ?_⟩
    rw [h2 _ (by rw [DMat.length_mulVec, hA])]
    exact fun e => hy (Except.ok.inj e).symm
  · have hB' : ∀ y : List ℝ, y.length = m → B.mulVec y = y := fun y hy => by
      by_contra h
      exact hB ⟨y, hy, h⟩
    obtain ⟨x, hx, hne⟩ := h.resolve_right hB
    obtain ⟨i, hi, hd⟩ : ∃ i < n, (A.mulVec x).getD i 0 ≠ x.getD i 0 := by
      by_contra hcon
      push Not at hcon
      exact hne (DMat.vec_ext (by rw [DMat.length_mulVec, hA, hx]) fun i hi => hcon i (by rw [DMat.length_mulVec, hA] at hi; exact hi))
    obtain ⟨ps, h1, h2⟩ := exists_pass Real.sigmoid hs hpos (m := m) hm hi ((A.mulVec x).getD i 0 - x.getD i 0) (x.getD i 0)
    obtain ⟨y, a1, a2, a3⟩ := h2 x hx
    obtain ⟨y', b1, b2, b3⟩ := h2 (A.mulVec x) (by rw [DMat.length_mulVec, hA])
    refine ⟨ps, h1, x, y, hx, a1, ?_⟩
    rw [b1, hB' y a2]
    intro e
    rw [Except.ok.inj e, a3, sub_self, mul_zero, swish_iter_zero] at b3
    exact absurd b3 (swish_iter_pos _ (mul_self_pos.2 (sub_ne_zero.2 hd))).ne

end

/-- A network of each shape: `MLP(V,V,G,ch,num_layers)`. -/
example (n ch L : ℕ) : ∃ ps, Forall₂ FrontEnd.objax.DenseShaped ps (layerWidths n (replicate L ch) n) ∧ ∀ v : List ℝ, v.length = n → mlpVec Real.sigmoid ps v = .ok (replicate n 0) := by
  obtain ⟨ps, h1, h2⟩ := exists_constant Real.sigmoid (replicate L ch) n (replicate n 0)
  exact ⟨ps, by simpa using h1, h2⟩

/-- The arguments of `C114_mlp` for a vector. -/
example : RepArg exW 0 576 (.rep 0) Rep.V := ⟨⟨by decide, Or.inl rfl⟩, by decide, Or.inl rfl⟩

/-- `C114_mlp` on a case: two hidden layers of width 5 on the vectors of the first group. -/
example (F : FrontEnd) : ∃ M sg', F.mlp exW Rep.V Rep.V 0 5 2 none = .ok (M, sg') ∧ M.layers 3 = [(3, 5), (5, 5), (5, 3)] := by
  have ha : RepArg exW 0 576 (.rep 0) Rep.V := ⟨⟨by decide, Or.inl rfl⟩, by decide, Or.inl rfl⟩
  obtain ⟨M, sg', h1, -, h2, -⟩ := C114_mlp (exW_single 0 576 (by decide)) ha ha (sg := none) (fun h e => by simp at e) F 5 2
  exact ⟨M, sg', h1, h2⟩

/-- An integrator as `C114_mlpode` needs it exists. -/
example {n : ℕ} {hs : List ℕ} {ps : List (DenseP ℝ)} (hp : Forall₂ FrontEnd.objax.DenseShaped ps (layerWidths n hs n)) : ∃ odeint : Odeint, ∀ (k : ℕ) (ts : List ℝ), Forward ts →
    odeint.Sound (k * n) (fun y t => ((rowsOf n k y).map fun z => total (odeNet (mlpVec Real.sigmoid ps)) z t).flatten) ts := by
  obtain ⟨f, hf, hsm⟩ := exists_mlpFun (k := 1) contDiff_sigmoid' hp
  have ht : ∀ z : List ℝ, z.length = n → total (odeNet (mlpVec Real.sigmoid ps)) z 0 = f z := fun z hz => by
    rw [total, odeNet, (hf z hz).1]; rfl
  have hC : ContDiff ℝ 1 (asMap n fun z => total (odeNet (mlpVec Real.sigmoid ps)) z 0) := by
    rw [contDiff_pi]
    intro i
    have : (fun v => asMap n (fun z => total (odeNet (mlpVec Real.sigmoid ps)) z 0) v i) = fun v => (f (List.ofFn v)).getD i 0 := by
      funext v
      rw [asMap, ht _ (by simp)]
    rw [this]
    exact hsm i
  obtain ⟨odeint, ho⟩ := exists_integrator
  exact ⟨odeint, fun k ts hts => ho _ _ _ (batch_smooth (m := k) (fun z hz => by rw [ht z hz]; exact (hf z hz).2) hC).locallyLipschitz hts⟩

end Verif
