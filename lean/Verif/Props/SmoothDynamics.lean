import Verif.Lemmas.ExprExp
import Verif.Lemmas.Rollouts
import Verif.Props.Smooth

/-!
# C112: rollouts of the learned dynamics
-/
namespace Verif
open List Set

section
variable {W : World} {g : Gid} {N : ℕ} {custom : ∀ k g, AtomRep ℝ (W.d g) (W.usize k g)}
  {lie disc : ∀ g, List (Matrix (Fin (W.d g)) (Fin (W.d g)) ℝ)} {solve : ℕ → LinOp ℝ → Py (DMat ℝ)} {rng : Rng} {σ σ' : NetSt ℝ}
  {ein eout : Expr} {rin rout : Rep} {fuel b L : ℕ} {ch : Ch} {ws : List ℕ} {E : Emlp ℝ}

/-- The field of a network that returns for one state is smooth. -/
theorem field_smooth {k : WithTop ℕ∞} {n : ℕ} {c : ℝ} {act : ℝ → ℝ} (hact : ContDiff ℝ k act) {ps : List (BlockParams ℝ)} {w : DMat ℝ} {β x0 y0 : List ℝ}
    (hx0 : x0.length = n) (h0 : E.apply W c act ps w β x0 = .ok y0) : ContDiff ℝ k (asMap n fun z => total (odeNet (E.apply W c act ps w β)) z 0) := by
  subst hx0
  obtain ⟨f, h1, h2⟩ := C111_input c hact E ps w β h0
  rw [contDiff_pi]
  intro i
  have : (fun v => asMap x0.length (fun z => total (odeNet (E.apply W c act ps w β)) z 0) v i) = fun v => (f (List.ofFn v)).getD i 0 := by
    funext v
    unfold asMap total odeNet
    beta_reduce
    rw [(h1 (List.ofFn v) (by simp)).1]; rfl
  rw [this]
  exact h2 i

/-- **C112, `EMLPode`.** For a network with differentiable activation, whatever its parameters, that returns for one state: the field is
locally Lipschitz, so that `odeint` has at most one rollout to return; and wherever the states of a batch have rollouts, `BOdeFlow` returns
them, and for the states moved by a group element it returns the rollouts moved by it. -/
theorem C112_emlpode (hW : W.SingleOK g N) (hd : 2 ≤ W.d g) (hdN : W.d g ≤ N) (ok : GroupsOK W custom lie disc)
    (hsol : SolverOK W (gensOf W (stdAtoms W custom) lie disc) solve) (hσ : NetReach W g (gensOf W (stdAtoms W custom) lie disc) solve σ)
    (hrng : RngOK rng) (hin : RepArg W g N ein rin) (hch : ch.Widths W g N b L ws)
    (hbi : ein.dim W g ≤ b) (hbf : b < fuel) (hN : (2 * b) * (2 * b) ≤ N)
    (hE : Emlp.init W (gensOf W (stdAtoms W custom) lie disc) solve rng fuel rin rin g ch L σ = .ok (E, σ'))
    {ps : List (BlockParams ℝ)} {w : DMat ℝ} {β : List ℝ} (hp : E.Shaped ps w β) (c : ℝ) {act : ℝ → ℝ} (hact : ContDiff ℝ 1 act)
    {x0 y0 : List ℝ} (hx0 : x0.length = ein.dim W g) (h0 : E.apply W c act ps w β x0 = .ok y0) :
    LocallyLipschitz (asMap (ein.dim W g) fun z => total (odeNet (E.apply W c act ps w β)) z 0) ∧
    ∀ (odeint : Odeint) (ts : List ℝ) (z0 : List (List ℝ)) (zs : List (List (List ℝ))),
      odeint.Sound (z0.length * ein.dim W g)
        (fun y t => ((rowsOf (ein.dim W g) z0.length y).map fun z => total (odeNet (E.apply W c act ps w β)) z t).flatten) ts →
      Forall₂ (fun z traj => Rollout (ein.dim W g) (fun x => total (odeNet (E.apply W c act ps w β)) x 0) z ts traj) z0 zs →
      bOdeFlow odeint (odeNet (E.apply W c act ps w β)) (ein.dim W g) z0 ts = .ok zs ∧
      ∀ h, Generated (lie g) (disc g) h →
        bOdeFlow odeint (odeNet (E.apply W c act ps w β)) (ein.dim W g) (z0.map (ein.den g (Interp.elem W custom g h)).1.mulVec) ts
          = .ok (zs.map fun traj => traj.map (ein.den g (Interp.elem W custom g h)).1.mulVec) := by
  refine ⟨(field_smooth hact hx0 h0).locallyLipschitz, fun odeint ts z0 zs ho hr => ?_⟩
  obtain ⟨f, hf, -⟩ := C111_input c hact E ps w β h0
  have hl := (C40_widths hW hd hdN ok hsol hσ hrng hin hin hch hbi hbi hbf hN hE).2.2.2.2.2.2 ps w β hp c act
  have hdyn : ∀ z t, z.length = ein.dim W g → ∃ v, odeNet (E.apply W c act ps w β) z t = .ok v ∧ v.length = ein.dim W g := fun z t hz => by
    have := (hf z (hz.trans hx0.symm)).1
    exact ⟨_, this, hl z _ hz this⟩
  refine ⟨bOdeFlow_sound hdyn (fun _ _ _ => rfl) ho hr, fun h hg => ?_⟩
  refine bOdeFlow_sound hdyn (fun _ _ _ => rfl) (by rw [length_map]; exact ho) ?_
  rw [forall₂_map_left_iff, forall₂_map_right_iff]
  refine hr.imp fun z traj hzt => hzt.map (ein.den_pair (elem_dual (g := g) ok hg)).sq1 fun x hx => ?_
  have h1 := (hf x (hx.trans hx0.symm)).1
  have h2 := C40_equivariant hW hd hdN ok hsol hσ hrng hin hin hch hbi hbi hbf hN hE hp c act hg hx h1
  unfold total odeNet
  rw [h1, h2]
  exact ⟨hl x _ hx h1, rfl⟩

/-- The energy of an `EMLPH` as a real number. -/
noncomputable def netEnergy (network : List ℝ → Py (List ℝ)) (x : List ℝ) : ℝ := (hamiltonianNet network x).toOption.getD 0

theorem netEnergy_smooth {k : WithTop ℕ∞} {n : ℕ} {c : ℝ} {act : ℝ → ℝ} (hact : ContDiff ℝ k act) {ps : List (BlockParams ℝ)} {w : DMat ℝ} {β x0 y0 : List ℝ}
    (hx0 : x0.length = n) (h0 : E.apply W c act ps w β x0 = .ok y0) :
    (∀ x : List ℝ, x.length = n → hamiltonianNet (E.apply W c act ps w β) x = .ok (netEnergy (E.apply W c act ps w β) x)) ∧
    ContDiff ℝ k fun v : Fin n → ℝ => netEnergy (E.apply W c act ps w β) (List.ofFn v) := by
  subst hx0
  obtain ⟨f, h1, h2⟩ := C111_input c hact E ps w β h0
  have hs : ∀ x : List ℝ, x.length = x0.length → hamiltonianNet (E.apply W c act ps w β) x = .ok (f x).sum := fun x hx => by
    rw [hamiltonianNet, (h1 x hx).1]; rfl
  have e : ∀ x : List ℝ, x.length = x0.length → netEnergy (E.apply W c act ps w β) x = (f x).sum := fun x hx => by
    rw [netEnergy, hs x hx]; rfl
  refine ⟨fun x hx => by rw [hs x hx, e x hx], ?_⟩
  have : (fun v : Fin x0.length → ℝ => netEnergy (E.apply W c act ps w β) (List.ofFn v)) = fun v => ∑ i ∈ Finset.range y0.length, (f (List.ofFn v)).getD i 0 := by
    funext v
    rw [e _ (by simp), ← (h1 (List.ofFn v) (by simp)).2]
    generalize f (List.ofFn v) = l
    induction l with
    | nil => simp
    | cons a l ih => rw [sum_cons, ih, length_cons, Finset.sum_range_succ', add_comm]; simp
  rw [this]
  exact ContDiff.sum fun i _ => h2 i

/-- The gradient is unique. -/
theorem IsGradAt.eq {n : ℕ} {H : List ℝ → ℝ} {grad grad' : List ℝ → List ℝ} {x : List ℝ} (h : IsGradAt n H grad x) (h' : IsGradAt n H grad' x) : grad x = grad' x := by
  obtain ⟨l1, L, hL, hv⟩ := h
  obtain ⟨l2, L', hL', hv'⟩ := h'
  have e := hL.unique hL'
  subst e
  refine DMat.vec_ext (by rw [l1, l2]) fun i hi => ?_
  have hi' : i < n := by rwa [l1] at hi
  have a := hv (Pi.single ⟨i, hi'⟩ 1)
  rw [hv'] at a
  simpa [Pi.single_apply] using a.symm

theorem gradField_smooth {d : ℕ} {H : List ℝ → ℝ} {grad : List ℝ → List ℝ} (hg : IsGrad (d + d) H grad)
    (hH : ContDiff ℝ 2 fun v : Fin (d + d) → ℝ => H (List.ofFn v)) : ContDiff ℝ 1 (asMap (d + d) fun x => total (fun z _ => hamiltonianDynamics grad z) x 0) := by
  have hsm : ∀ i : ℕ, ContDiff ℝ 1 fun v : Fin (d + d) → ℝ => (grad (List.ofFn v)).getD i 0 := by
    intro i
    by_cases hi : i < d + d
    · have : (fun v : Fin (d + d) → ℝ => (grad (List.ofFn v)).getD i 0) = fun v => fderiv ℝ (fun v : Fin (d + d) → ℝ => H (List.ofFn v)) v (Pi.single ⟨i, hi⟩ 1) := by
        funext v
        obtain ⟨-, L, hL, hv⟩ := hg (List.ofFn v) (by simp)
        rw [show (fun i : Fin (d + d) => (List.ofFn v).getD i 0) = v from funext fun i => getD_ofFn _ i] at hL
        rw [hL.fderiv, hv]
        simp [Pi.single_apply]
      rw [this]
      exact (hH.fderiv_right (m := 1) (by norm_num [one_add_one_eq_two])).clm_apply contDiff_const
    · have : (fun v : Fin (d + d) → ℝ => (grad (List.ofFn v)).getD i 0) = fun _ => 0 := by
        funext v
        exact getD_eq_default _ _ (by rw [grad_length hg (by simp)]; omega)
      rw [this]
      exact contDiff_const
  rw [contDiff_pi]
  intro i
  have : (fun v => asMap (d + d) (fun x => total (fun z _ => hamiltonianDynamics grad z) x 0) v i) =
      fun v => ∑ j ∈ Finset.range (d + d), (sympMat d).e i j * (grad (List.ofFn v)).getD j 0 := by
    funext v
    unfold asMap
    beta_reduce
    rw [total_ok hg (by simp), DMat.getD_mulVec (by exact i.2)]
    rfl
  rw [this]
  exact ContDiff.sum fun j _ => contDiff_const.mul (hsm j)

/-- **C112, `EMLPH`.** For a network on a representation of phase space, with scalar output and twice differentiable activation, whatever its
parameters, that returns for one state: `H` is defined and differentiable everywhere (so that `jax.grad` is its gradient `grad`), the field
is locally Lipschitz and commutes with the group; and wherever a state has a rollout, `HamiltonianFlow` returns it, all its states have the energy of
the first one, and for the state moved by a group element `HamiltonianFlow` returns the rollout moved by it. -/
theorem C112_emlph (hW : W.SingleOK g N) (hd : 2 ≤ W.d g) (hdN : W.d g ≤ N) (ok : GroupsOK W custom lie disc)
    (hsol : SolverOK W (gensOf W (stdAtoms W custom) lie disc) solve) (hσ : NetReach W g (gensOf W (stdAtoms W custom) lie disc) solve σ)
    (hrng : RngOK rng) (hin : RepArg W g N ein rin) (hout : RepArg W g N .scalar rout) (hch : ch.Widths W g N b L ws)
    (hbi : ein.dim W g ≤ b) (hbo : 1 ≤ b) (hbf : b < fuel) (hN : (2 * b) * (2 * b) ≤ N)
    (hE : Emlp.init W (gensOf W (stdAtoms W custom) lie disc) solve rng fuel rin rout g ch L σ = .ok (E, σ'))
    {ps : List (BlockParams ℝ)} {w : DMat ℝ} {β : List ℝ} (hp : E.Shaped ps w β) (c : ℝ) {act : ℝ → ℝ} (hact : ContDiff ℝ 2 act) {d : ℕ} (hps : PhaseSpace W g d ein)
    {x0 y0 : List ℝ} (hx0 : x0.length = d + d) (h0 : E.apply W c act ps w β x0 = .ok y0) :
    ∃ H : List ℝ → ℝ, (∀ x : List ℝ, x.length = d + d → hamiltonianNet (E.apply W c act ps w β) x = .ok (H x)) ∧ (∃ grad, IsGrad (d + d) H grad) ∧
    ∀ grad, IsGrad (d + d) H grad → LocallyLipschitz (asMap (d + d) fun x => total (fun z _ => hamiltonianDynamics grad z) x 0) ∧
      (∀ h, Generated (lie g) (disc g) h → ∀ z : List ℝ, z.length = d + d → ∃ v, hamiltonianDynamics grad z = .ok v ∧
        hamiltonianDynamics grad ((ein.den g (Interp.elem W custom g h)).1.mulVec z) = .ok ((ein.den g (Interp.elem W custom g h)).1.mulVec v)) ∧
      ∀ (odeint : Odeint) (ts : List ℝ), odeint.Sound (d + d) (total fun z _ => hamiltonianDynamics grad z) ts → Forward ts → ∀ (z0 : List ℝ) (zs : List (List ℝ)),
        Rollout (d + d) (fun z => total (fun z _ => hamiltonianDynamics grad z) z 0) z0 ts zs →
        hamiltonianFlow odeint grad z0 ts = .ok zs ∧ (∀ z ∈ zs, H z = H z0) ∧
        ∀ h, Generated (lie g) (disc g) h → hamiltonianFlow odeint grad ((ein.den g (Interp.elem W custom g h)).1.mulVec z0) ts =
          .ok (zs.map (ein.den g (Interp.elem W custom g h)).1.mulVec) := by
  obtain ⟨hH, hsm⟩ := netEnergy_smooth hact hx0 h0
  have hdim : ein.dim W g = d + d := (C91_phase_space hps (elem_dual (g := g) ok .one)).1
  have hinv : ∀ h, Generated (lie g) (disc g) h → ∀ x : List ℝ, x.length = d + d →
      netEnergy (E.apply W c act ps w β) ((ein.den g (Interp.elem W custom g h)).1.mulVec x) = netEnergy (E.apply W c act ps w β) x := by
    intro h hg x hx
    obtain ⟨e1, e2⟩ := C91_phase_space hps (elem_dual (g := g) ok hg)
    have hn := C91_network hW hd hdN ok hsol hσ hrng hin hout hch hbi hbo hbf hN hE hp c act hg (by
      intro j hj
      have : j = 0 := by simpa [Expr.dim] using hj
      subst this
      simp [Expr.dim, Expr.den, DMat.one, DMat.of]) (by rw [hx, e1]) (hH x hx)
    rw [netEnergy, hn]; rfl
  refine ⟨netEnergy (E.apply W c act ps w β), hH, ⟨gradOf (d + d) _, fun x hx => gradOf_spec ((hsm.differentiable (by norm_num)).differentiableAt)⟩,
    fun grad hgr => ⟨(gradField_smooth hgr hsm).locallyLipschitz, fun h hg z hz => ?_, fun odeint ts ho hts z0 zs hr => ⟨?_, Rollout.energy hgr hts hr, fun h hg => ?_⟩⟩⟩
  · obtain ⟨e1, e2⟩ := C91_phase_space hps (elem_dual (g := g) ok hg)
    obtain ⟨v, a1, -, a3⟩ := C91_dynamics e2 (hinv h hg) hz (hgr z hz) (hgr _ (by rw [DMat.length_mulVec, e2.1.1]))
    exact ⟨v, a1, a3⟩
  · unfold hamiltonianFlow
    rw [dynamics_ok hgr hr.length, ← ho (fun _ _ _ => rfl) _ _ hr]
    rfl
  · obtain ⟨e1, e2⟩ := C91_phase_space hps (elem_dual (g := g) ok hg)
    have hr' := hr.map e2.1 fun x hx => by
      obtain ⟨v, a1, a2, a3⟩ := C91_dynamics e2 (hinv h hg) hx (hgr x hx) (hgr _ (by rw [DMat.length_mulVec, e2.1.1]))
      unfold total
      beta_reduce
      rw [a1, a3]
      exact ⟨a2, rfl⟩
    unfold hamiltonianFlow
    rw [dynamics_ok hgr hr'.length, ← ho (fun _ _ _ => rfl) _ _ hr']
    rfl

/-- The two halves of phase space. -/
theorem PhaseSpace.halves {d : ℕ} (hps : PhaseSpace W g d ein) : ∃ e : Expr, e.dim W g = d ∧
    (∀ I : Interp ℝ, I.Dual W → (ein.den g I).1 = DMat.bdiag2 (e.den g I).1 (e.den g I).2) ∧
    ∀ D : Interp ℝ, D.Sized W → ∀ i < d, ∀ j < d, (ein.dden g D).1.e i j = (e.dden g D).1.e i j := by
  cases hps with
  | dual e =>
    refine ⟨e, rfl, fun I _ => by simp only [Expr.den, DMat.bdiag, DMat.bdiag2_zero], fun D hD i hi j hj => ?_⟩
    simp only [Expr.dden, DMat.bdiag, DMat.bdiag2_zero]
    obtain ⟨⟨h1, h2⟩, -⟩ := e.dden_sq (g := g) hD
    rw [DMat.bdiag2_e11 (by rw [h1]; exact hi) (by rw [h2]; exact hj)]
  | same e ho =>
    refine ⟨e, rfl, fun I hI => ?_, fun D hD i hi j hj => ?_⟩
    · rw [← e.den_orth hI ho]
      simp only [Expr.den, DMat.bdiag, DMat.bdiag2_zero]
    simp only [Expr.dden, DMat.bdiag, DMat.bdiag2_zero]
    obtain ⟨⟨h1, h2⟩, -⟩ := e.dden_sq (g := g) hD
    rw [DMat.bdiag2_e11 (by rw [h1]; exact hi) (by rw [h2]; exact hj)]
  | copies k e ho =>
    refine ⟨.nsmul k e, rfl, fun I hI => ?_, fun D hD i hi j hj => ?_⟩
    · rw [← (Expr.nsmul k e).den_orth hI ho]
      simp only [Expr.den]
      rw [← replicate_append_replicate, DMat.bdiag_append]
    have hs := ((Expr.nsmul k e).dden_sq (g := g) hD).1
    simp only [Expr.dden, Expr.dim] at hs ⊢
    rw [← replicate_append_replicate, DMat.bdiag_append, DMat.bdiag2_e11 (by rw [hs.1]; exact hi) (by rw [hs.2]; exact hj)]

/-- The exponentials of a matrix and of its dual are inverse transposes. -/
theorem exp_dual_mul {n : ℕ} (X : Matrix (Fin n) (Fin n) ℝ) (t : ℝ) :
    (NormedSpace.exp (t • (-X.transpose))).transpose * NormedSpace.exp (t • X) = 1 := by
  have h : t • (-X.transpose) = (-(t • X)).transpose := by
    rw [Matrix.transpose_neg, Matrix.transpose_smul, smul_neg]
  rw [h, Matrix.exp_transpose, Matrix.transpose_transpose, Matrix.exp_neg]
  exact Matrix.nonsing_inv_mul _ ((Matrix.isUnit_iff_isUnit_det _).1 (Matrix.isUnit_exp _))

theorem ofMatrix_mulVec_ofFn {n : ℕ} (M : Matrix (Fin n) (Fin n) ℝ) (v : Fin n → ℝ) : (DMat.ofMatrix M).mulVec (List.ofFn v) = List.ofFn (M.mulVec v) := by
  have h := mulVec_ofFn (M := DMat.ofMatrix M) (n := n) ⟨rfl, rfl⟩ v
  refine h.trans (congrArg List.ofFn ?_)
  funext i
  exact Finset.sum_congr rfl fun j _ => by rw [DMat.ofMatrix_e _ i.2 j.2]

/-- **C112, conservation of momentum.** For an `EMLPH` on a representation of phase space, whatever its parameters: for every element `A` of the
Lie algebra of the group, the momentum `p·Xq`, where `X` is the action `drho(A)` on the positions, is the same at all states of a rollout.  For
rotations it is the angular momentum. -/
theorem C112_momentum (hW : W.SingleOK g N) (hd : 2 ≤ W.d g) (hdN : W.d g ≤ N) (ok : GroupsOK W custom lie disc)
    (hsol : SolverOK W (gensOf W (stdAtoms W custom) lie disc) solve) (hσ : NetReach W g (gensOf W (stdAtoms W custom) lie disc) solve σ)
    (hrng : RngOK rng) (hin : RepArg W g N ein rin) (hout : RepArg W g N .scalar rout) (hch : ch.Widths W g N b L ws)
    (hbi : ein.dim W g ≤ b) (hbo : 1 ≤ b) (hbf : b < fuel) (hN : (2 * b) * (2 * b) ≤ N)
    (hE : Emlp.init W (gensOf W (stdAtoms W custom) lie disc) solve rng fuel rin rout g ch L σ = .ok (E, σ'))
    {ps : List (BlockParams ℝ)} {w : DMat ℝ} {β : List ℝ} (hp : E.Shaped ps w β) (c : ℝ) {act : ℝ → ℝ} {d : ℕ} (hps : PhaseSpace W g d ein)
    {H : List ℝ → ℝ} (hH : ∀ x : List ℝ, x.length = d + d → hamiltonianNet (E.apply W c act ps w β) x = .ok (H x)) {grad : List ℝ → List ℝ} (hgr : IsGrad (d + d) H grad)
    {odeint : Odeint} {ts : List ℝ} (ho : odeint.Sound (d + d) (total fun z _ => hamiltonianDynamics grad z) ts) (hts : Forward ts) {z0 : List ℝ} {zs : List (List ℝ)}
    (hr : Rollout (d + d) (fun z => total (fun z _ => hamiltonianDynamics grad z) z 0) z0 ts zs)
    {A : Matrix (Fin (W.d g)) (Fin (W.d g)) ℝ} (hA : A ∈ Submodule.span ℝ {B | B ∈ lie g}) {X : Matrix (Fin d) (Fin d) ℝ}
    (hX : ∀ i j : Fin d, X i j = (ein.dden g (Interp.dat W (stdAtoms W custom) (zeroAt W g A))).1.e i j) :
    hamiltonianFlow odeint grad z0 ts = .ok zs ∧ ∀ z ∈ zs, momentum X z = momentum X z0 := by
  refine ⟨?_, Rollout.momentum hgr hts X (fun t q p => ?_) hr⟩
  · unfold hamiltonianFlow
    rw [dynamics_ok hgr hr.length, ← ho (fun _ _ _ => rfl) _ _ hr]
    rfl
  obtain ⟨e, he, hden, hdden⟩ := hps.halves
  subst he
  have hg : Generated (lie g) (disc g) (NormedSpace.exp (t • A)) := .exp (Submodule.smul_mem _ t hA)
  have hI := elem_dual (g := g) ok hg
  obtain ⟨e1, e2⟩ := C91_phase_space hps hI
  have hXe : (e.dden g (Interp.dat W (stdAtoms W custom) (zeroAt W g A))).1.toMatrix (e.dim W g) (e.dim W g) = X := by
    ext i j
    rw [hX, hdden _ (dat_sized _) i i.2 j j.2]
    rfl
  have h1 : (e.den g (Interp.elem W custom g (NormedSpace.exp (t • A)))).1 = DMat.ofMatrix (NormedSpace.exp (t • X)) := by
    have := (e.den_exp (stdAtoms_hom ok.hom) hA t).1
    rwa [hXe] at this
  have hpair := e.den_pair (g := g) hI
  have h2 : (e.den g (Interp.elem W custom g (NormedSpace.exp (t • A)))).2 = DMat.ofMatrix (NormedSpace.exp (t • (-X.transpose))) := by
    refine DMat.invT_unique hpair.sq2 ⟨rfl, rfl⟩ hpair.sq1 hpair.inv ?_
    rw [h1, ← DMat.ofMatrix_transpose, ← DMat.ofMatrix_mul, exp_dual_mul, DMat.ofMatrix_one]
  have hmv : (ein.den g (Interp.elem W custom g (NormedSpace.exp (t • A)))).1.mulVec (List.ofFn q ++ List.ofFn p) =
      List.ofFn ((NormedSpace.exp (t • X)).mulVec q) ++ List.ofFn ((NormedSpace.exp (t • (-X.transpose))).mulVec p) := by
    rw [hden _ hI, h1, h2, DMat.mulVec_bdiag2 _ _ _ _ (by rw [length_ofFn]; rfl), ofMatrix_mulVec_ofFn, ofMatrix_mulVec_ofFn]
  have hl : (List.ofFn q ++ List.ofFn p).length = e.dim W g + e.dim W g := by simp
  have hn := C91_network hW hd hdN ok hsol hσ hrng hin hout hch hbi hbo hbf hN hE hp c act hg (by
    intro j hj
    have : j = 0 := by simpa [Expr.dim] using hj
    subst this
    simp [Expr.dim, Expr.den, DMat.one, DMat.of]) (by rw [hl, e1]) (hH _ hl)
  rw [hmv, hH _ (by simp)] at hn
  exact Except.ok.inj hn

/-- **C112, the hypotheses can be met (`EMLPode`).** From every state and every initial time the network has a rollout at all times close enough;
and there is an integrator that meets the contract for the batches of every size and all forward times. -/
theorem C112_emlpode_exists {n : ℕ} {c : ℝ} {act : ℝ → ℝ} (hact : ContDiff ℝ 1 act) {ps : List (BlockParams ℝ)} {w : DMat ℝ} {β x0 y0 : List ℝ}
    (hx0 : x0.length = n) (hy0 : y0.length = n) (h0 : E.apply W c act ps w β x0 = .ok y0) :
    (∀ z0 : List ℝ, z0.length = n → ∀ t0 : ℝ, ∃ ε > 0, ∀ ts : List ℝ, (∀ t ∈ t0 :: ts, t0 ≤ t ∧ t < t0 + ε) →
      ∃ zs, Rollout n (fun z => total (odeNet (E.apply W c act ps w β)) z 0) z0 (t0 :: ts) zs) ∧
    ∃ odeint : Odeint, ∀ (m : ℕ) (ts : List ℝ), Forward ts →
      odeint.Sound (m * n) (fun y t => ((rowsOf n m y).map fun z => total (odeNet (E.apply W c act ps w β)) z t).flatten) ts := by
  have hs := field_smooth hact hx0 h0
  refine ⟨fun z0 hz t0 => exists_rollout hs hz t0, ?_⟩
  obtain ⟨odeint, ho⟩ := exists_integrator
  refine ⟨odeint, fun m ts hts => ho _ _ _ (ContDiff.locallyLipschitz (batch_smooth (m := m) (fun z hz => ?_) hs)) hts⟩
  obtain ⟨f, h1, -⟩ := C111_input c hact E ps w β h0
  have := h1 z (hz.trans hx0.symm)
  unfold total odeNet
  rw [this.1]
  exact this.2.trans hy0

/-- **C112, the hypotheses can be met (`EMLPH`).** -/
theorem C112_emlph_exists {d : ℕ} {c : ℝ} {act : ℝ → ℝ} (hact : ContDiff ℝ 2 act) {ps : List (BlockParams ℝ)} {w : DMat ℝ} {β x0 y0 : List ℝ}
    (hx0 : x0.length = d + d) (h0 : E.apply W c act ps w β x0 = .ok y0) :
    ∃ H grad, (∀ x : List ℝ, x.length = d + d → hamiltonianNet (E.apply W c act ps w β) x = .ok (H x)) ∧ IsGrad (d + d) H grad ∧
      (∀ z0 : List ℝ, z0.length = d + d → ∀ t0 : ℝ, ∃ ε > 0, ∀ ts : List ℝ, (∀ t ∈ t0 :: ts, t0 ≤ t ∧ t < t0 + ε) →
        ∃ zs, Rollout (d + d) (fun z => total (fun z _ => hamiltonianDynamics grad z) z 0) z0 (t0 :: ts) zs) ∧
      ∃ odeint : Odeint, ∀ ts : List ℝ, Forward ts → odeint.Sound (d + d) (total fun z _ => hamiltonianDynamics grad z) ts := by
  obtain ⟨hH, hsm⟩ := netEnergy_smooth hact hx0 h0
  have hgr : IsGrad (d + d) (netEnergy (E.apply W c act ps w β)) (gradOf (d + d) (netEnergy (E.apply W c act ps w β))) :=
    fun x hx => gradOf_spec ((hsm.differentiable (by norm_num)).differentiableAt)
  have hf := gradField_smooth hgr hsm
  obtain ⟨odeint, ho⟩ := exists_integrator
  exact ⟨_, _, hH, hgr, fun z0 hz t0 => exists_rollout hf hz t0, odeint, fun ts hts => ho _ _ _ hf.locallyLipschitz hts⟩

end

/-- The EMLPode of a case: `EMLP(V,V,G,[12,7],_)` for the rotations about the third axis; it meets the hypotheses of `C112_emlpode`. -/
example : ∃ (solve : ℕ → LinOp ℝ → Py (DMat ℝ)) (rng : Rng) (E : Emlp ℝ) (σ' : NetSt ℝ),
    Emlp.init exW (gensOf exW (stdAtoms exW fun k g => trivialAtom _ _) rotLies fun _ => []) solve rng 13 Rep.V Rep.V 0
      (.list [.int 12, .int 7]) 0 ⟨freshSt, none, 0⟩ = .ok (E, σ') ∧
    ∀ ps w β, E.Shaped ps w β → ∃ y, E.apply exW 0.1 Real.sigmoid ps w β [0, 0, 0] = .ok y := by
  obtain ⟨s, h1, h2⟩ := exists_solver ℝ
  obtain ⟨rng, hr⟩ := exists_rng
  have ha : RepArg exW 0 576 (.rep 0) Rep.V := ⟨⟨by decide, Or.inl rfl⟩, by decide, Or.inl rfl⟩
  have hc : Ch.Widths exW 0 576 12 0 (.list [.int 12, .int 7]) [12, 7] :=
    .list _ _ (.cons (.int 12 (by decide) (by decide)) (.cons (.int 7 (by decide) (by decide)) .nil))
  have hσ : NetReach exW 0 (gensOf exW (stdAtoms exW fun k g => trivialAtom _ _) rotLies fun _ => []) (fun _ => s) ⟨freshSt, none, 0⟩ :=
    .start none 0 fun h e => by simp at e
  obtain ⟨E, σ', hE, h⟩ := C40_total (L := 0) (fuel := 13) (exW_single 0 576 (by decide)) (by decide) (by decide) rot_groups (h1 _ _) (fun _ _ C _ => h2 C) hσ hr ha ha hc
    (.list _ fun c hc => by
      simp only [mem_cons, not_mem_nil, or_false] at hc
      rcases hc with rfl | rfl
      · exact ⟨12, by decide, rfl⟩
      · exact ⟨7, by decide, rfl⟩) (by decide) (by decide) (by decide) (by decide)
  exact ⟨_, rng, E, σ', hE, fun ps w β hp => h ps w β hp _ _ _ rfl⟩

/-- The action of a generator on the positions of `V+V.T`, as in `C112_momentum`: the generator itself. -/
example (W : World) (custom : ∀ k g, AtomRep ℝ (W.d g) (W.usize k g)) (g : Gid) (A : Matrix (Fin (W.d g)) (Fin (W.d g)) ℝ) (i j : Fin (W.d g)) :
    ((Expr.add (.rep 0) (.dual (.rep 0))).dden g (Interp.dat W (stdAtoms W custom) (zeroAt W g A))).1.e i j = A i j := by
  have e : ((Interp.dat W (stdAtoms W custom) (zeroAt W g A)).vec 0 (some g)).sem = DMat.ofMatrix A := by
    show DMat.ofMatrix (zeroAt W g A g) = _
    rw [zeroAt, Function.update_self]
  simp only [Expr.dden, DMat.bdiag, DMat.bdiag2_zero, e]
  rw [DMat.bdiag2_e11 i.2 j.2, DMat.ofMatrix_e _ i.2 j.2]

end Verif
