import Mathlib.Analysis.SpecialFunctions.Sqrt
import Verif.Props.Dynamics
import Verif.Props.FrontEnds

/-!
# C91: Hamiltonian networks
-/
namespace Verif
open List

/-- If the columns of `B` add up to one, multiplication by `B` does not change the sum of a vector. -/
theorem sum_mulVec {R : Type} [CommRing R] {n : ℕ} {B : DMat R} (hB : B.IsSq n) (h : ∀ j < n, ∑ i ∈ Finset.range n, B.e i j = 1) (y : List R)
    (hy : y.length = n) : (B.mulVec y).sum = y.sum := by
  have e : ∀ l : List R, l.sum = ∑ i ∈ Finset.range l.length, l.getD i 0 := by
    intro l
    induction l with
    | nil => simp
    | cons a l ih => rw [sum_cons, ih, length_cons, Finset.sum_range_succ', add_comm]; simp
  rw [e, e y, DMat.length_mulVec, hB.1, hy]
  rw [Finset.sum_congr rfl fun i hi => DMat.getD_mulVec (A := B) (by rw [hB.1]; exact Finset.mem_range.1 hi), Finset.sum_comm, hB.2]
  refine Finset.sum_congr rfl fun j hj => ?_
  rw [← Finset.sum_mul, h j (Finset.mem_range.1 hj), one_mul]

section
variable {W : World} {g : Gid}

/-- For a group flagged orthogonal every representation agrees with its dual. -/
theorem Expr.den_orth {R : Type} [CommRing R] {I : Interp R} (hI : I.Dual W) (ho : W.orth g = true) : ∀ e : Expr, (e.den g I).1 = (e.den g I).2
  | .scalar => rfl
  | .rep k => (DMat.invT_unique (hI.dual k g) (hI.vec k g) (hI.vec k g) (hI.inv k g) (hI.orth k g ho)).symm
  | .add a b => by simp only [Expr.den]; rw [a.den_orth hI ho, b.den_orth hI ho]
  | .mul a b => by simp only [Expr.den]; rw [a.den_orth hI ho, b.den_orth hI ho]
  | .dual a => by simp only [Expr.den]; rw [a.den_orth hI ho]
  | .nsmul n a => by simp only [Expr.den]; rw [a.den_orth hI ho]
  | .addNat a n => by simp only [Expr.den]; rw [a.den_orth hI ho]
  | .natAdd n a => by simp only [Expr.den]; rw [a.den_orth hI ho]
  | .pow a n => by simp only [Expr.den]; rw [a.den_orth hI ho]
  | .rshift a b => by simp only [Expr.den]; rw [a.den_orth hI ho, b.den_orth hI ho]
  | .lshift a b => by simp only [Expr.den]; rw [a.den_orth hI ho, b.den_orth hI ho]

/-- Representations of phase space, positions first: `q` of type `e` and `p` of the dual type for any group; `q` and `p` of the same type
for a group flagged orthogonal, written `e + e` or `(2k) * e`. -/
inductive PhaseSpace (W : World) (g : Gid) : ℕ → Expr → Prop
  | dual (e : Expr) : PhaseSpace W g (e.dim W g) (.add e (.dual e))
  | same (e : Expr) : W.orth g = true → PhaseSpace W g (e.dim W g) (.add e e)
  | copies (k : ℕ) (e : Expr) : W.orth g = true → PhaseSpace W g (k * e.dim W g) (.nsmul (k + k) e)

theorem InvPair.mul_transpose {R : Type} [CommRing R] {n : ℕ} {P : DMat R × DMat R} (h : InvPair n P) : P.1.mul P.2.transpose = DMat.one n :=
  DMat.mul_eq_one_comm ⟨h.sq2.2, h.sq2.1⟩ h.sq1 h.inv

/-- **C91, representations of phase space.** They act by matrices that preserve the symplectic form. -/
theorem C91_phase_space {d : ℕ} {e : Expr} (he : PhaseSpace W g d e) {I : Interp ℝ} (hI : I.Dual W) :
    e.dim W g = d + d ∧ Symplectic d (e.den g I).1 := by
  cases he with
  | dual e =>
    have h := e.den_pair (g := g) hI
    refine ⟨rfl, ?_⟩
    simp only [Expr.den, DMat.bdiag, DMat.bdiag2_zero]
    exact C91_symplectic h.sq1 h.sq2 h.mul_transpose
  | same e ho =>
    have h := e.den_pair (g := g) hI
    refine ⟨rfl, ?_⟩
    simp only [Expr.den, DMat.bdiag, DMat.bdiag2_zero]
    refine C91_symplectic h.sq1 h.sq1 ?_
    have := h.mul_transpose
    rwa [← e.den_orth hI ho] at this
  | copies k e ho =>
    have h := (Expr.nsmul k e).den_pair (g := g) hI
    refine ⟨by simp only [Expr.dim]; ring, ?_⟩
    have hd : ((Expr.nsmul (k + k) e).den g I).1 = DMat.bdiag2 ((Expr.nsmul k e).den g I).1 ((Expr.nsmul k e).den g I).1 := by
      simp only [Expr.den]
      rw [← replicate_append_replicate, DMat.bdiag_append]
    rw [hd]
    refine C91_symplectic h.sq1 h.sq1 ?_
    have := h.mul_transpose
    rwa [← (Expr.nsmul k e).den_orth hI ho] at this

variable {N : ℕ} {custom : ∀ k g, AtomRep ℝ (W.d g) (W.usize k g)}
  {lie disc : ∀ g, List (Matrix (Fin (W.d g)) (Fin (W.d g)) ℝ)} {solve : ℕ → LinOp ℝ → Py (DMat ℝ)} {rng : Rng} {σ σ' : NetSt ℝ}
  {ein eout : Expr} {rin rout : Rep} {fuel b L : ℕ} {ch : Ch} {ws : List ℕ} {E : Emlp ℝ}

/-- **C91, the network.** `EMLPH.H` is invariant: whenever it returns `y` at `x` it returns `y` at `ρ_in(h)x`, provided the output
representation preserves the sum of the entries.  This is so for scalars, and for permutation matrices. -/
theorem C91_network (hW : W.SingleOK g N) (hd : 2 ≤ W.d g) (hdN : W.d g ≤ N) (ok : GroupsOK W custom lie disc)
    (hsol : SolverOK W (gensOf W (stdAtoms W custom) lie disc) solve) (hσ : NetReach W g (gensOf W (stdAtoms W custom) lie disc) solve σ)
    (hrng : RngOK rng) (hin : RepArg W g N ein rin) (hout : RepArg W g N eout rout) (hch : ch.Widths W g N b L ws)
    (hbi : ein.dim W g ≤ b) (hbo : eout.dim W g ≤ b) (hbf : b < fuel) (hN : (2 * b) * (2 * b) ≤ N)
    (hE : Emlp.init W (gensOf W (stdAtoms W custom) lie disc) solve rng fuel rin rout g ch L σ = .ok (E, σ'))
    {ps : List (BlockParams ℝ)} {w : DMat ℝ} {β : List ℝ} (hp : E.Shaped ps w β) (c : ℝ) (act : ℝ → ℝ)
    {h : Matrix (Fin (W.d g)) (Fin (W.d g)) ℝ} (hg : Generated (lie g) (disc g) h)
    (hs : ∀ j < eout.dim W g, ∑ i ∈ Finset.range (eout.dim W g), (eout.den g (Interp.elem W custom g h)).1.e i j = 1)
    {x : List ℝ} {y : ℝ} (hx : x.length = ein.dim W g) (hy : hamiltonianNet (E.apply W c act ps w β) x = .ok y) :
    hamiltonianNet (E.apply W c act ps w β) ((ein.den g (Interp.elem W custom g h)).1.mulVec x) = .ok y := by
  have hl := (C40_widths hW hd hdN ok hsol hσ hrng hin hout hch hbi hbo hbf hN hE).2.2.2.2.2.2 ps w β hp c act x
  cases hv : E.apply W c act ps w β x with
  | error e => rw [hamiltonianNet, hv] at hy; cases hy
  | ok v =>
    rw [hamiltonianNet, hv] at hy
    have hy : v.sum = y := Except.ok.inj hy
    rw [hamiltonianNet, C40_equivariant hW hd hdN ok hsol hσ hrng hin hout hch hbi hbo hbf hN hE hp c act hg hx hv]
    show Except.ok _ = _
    rw [sum_mulVec (eout.den_pair (elem_dual (g := g) ok hg)).sq1 hs v (hl v hx hv), hy]

/-- The output representation of `EMLPH` is `Scalar` in the experiments; more generally sums of scalars meet the condition. -/
theorem C91_scalar_out (I : Interp ℝ) (n : ℕ) : ∀ j < (Expr.nsmul n .scalar).dim W g,
    ∑ i ∈ Finset.range ((Expr.nsmul n .scalar).dim W g), ((Expr.nsmul n .scalar).den g I).1.e i j = 1 := by
  intro j hj
  simp only [Expr.dim, Expr.den, mul_one] at hj ⊢
  rw [DMat.bdiag_replicate, DMat.kron_one_one]
  rw [Finset.sum_eq_single j]
  · rw [DMat.one_e (by simpa using hj) (by simpa using hj), if_pos rfl]
  · intro i hi hij
    rw [DMat.one_e (by simpa using Finset.mem_range.1 hi) (by simpa using hj), if_neg hij]
  · intro h
    exact absurd (Finset.mem_range.2 hj) h

/-- **C91, the dynamics of the network.** For a network on a representation of phase space, with scalar output, that returns on every
state, the field `hamiltonian_dynamics` of its `H` commutes with the group, at the states where `H` is differentiable. -/
theorem C91_emlph (hW : W.SingleOK g N) (hd : 2 ≤ W.d g) (hdN : W.d g ≤ N) (ok : GroupsOK W custom lie disc)
    (hsol : SolverOK W (gensOf W (stdAtoms W custom) lie disc) solve) (hσ : NetReach W g (gensOf W (stdAtoms W custom) lie disc) solve σ)
    (hrng : RngOK rng) (hin : RepArg W g N ein rin) (hout : RepArg W g N .scalar rout) (hch : ch.Widths W g N b L ws)
    (hbi : ein.dim W g ≤ b) (hbo : 1 ≤ b) (hbf : b < fuel) (hN : (2 * b) * (2 * b) ≤ N)
    (hE : Emlp.init W (gensOf W (stdAtoms W custom) lie disc) solve rng fuel rin rout g ch L σ = .ok (E, σ'))
    {ps : List (BlockParams ℝ)} {w : DMat ℝ} {β : List ℝ} (hp : E.Shaped ps w β) (c : ℝ) (act : ℝ → ℝ) {d : ℕ} (hps : PhaseSpace W g d ein)
    {H : List ℝ → ℝ} (hH : ∀ x : List ℝ, x.length = ein.dim W g → hamiltonianNet (E.apply W c act ps w β) x = .ok (H x)) {grad : List ℝ → List ℝ}
    {h : Matrix (Fin (W.d g)) (Fin (W.d g)) ℝ} (hg : Generated (lie g) (disc g) h) {z : List ℝ} (hz : z.length = ein.dim W g)
    (h1 : IsGradAt (ein.dim W g) H grad z) (h2 : IsGradAt (ein.dim W g) H grad ((ein.den g (Interp.elem W custom g h)).1.mulVec z)) :
    ∃ v, hamiltonianDynamics grad z = .ok v ∧ v.length = ein.dim W g ∧
      hamiltonianDynamics grad ((ein.den g (Interp.elem W custom g h)).1.mulVec z) = .ok ((ein.den g (Interp.elem W custom g h)).1.mulVec v) := by
  obtain ⟨e1, e2⟩ := C91_phase_space hps (elem_dual (g := g) ok hg)
  rw [e1] at hz h1 h2 ⊢
  refine C91_dynamics e2 (fun x hx => ?_) hz h1 h2
  have hn := C91_network hW hd hdN ok hsol hσ hrng hin hout hch hbi hbo hbf hN hE hp c act hg (by
    intro j hj
    have : j = 0 := by simpa [Expr.dim] using hj
    subst this
    simp [Expr.dim, Expr.den, DMat.one, DMat.of]) (by rw [hx, e1]) (hH x (by rw [hx, e1]))
  rw [hH _ (by rw [DMat.length_mulVec, e2.1.1, e1])] at hn
  exact Except.ok.inj hn

/-- **C92, the rollouts of `EMLPode`.** For `EMLPode(rep,rep,group)`, with any parameters for which the network returns on every state and gives a
locally Lipschitz field, the batched rollout of the states moved by a group element consists of the rollouts moved by it. -/
theorem C92_emlpode (hW : W.SingleOK g N) (hd : 2 ≤ W.d g) (hdN : W.d g ≤ N) (ok : GroupsOK W custom lie disc)
    (hsol : SolverOK W (gensOf W (stdAtoms W custom) lie disc) solve) (hσ : NetReach W g (gensOf W (stdAtoms W custom) lie disc) solve σ)
    (hrng : RngOK rng) (hin : RepArg W g N ein rin) (hch : ch.Widths W g N b L ws)
    (hbi : ein.dim W g ≤ b) (hbf : b < fuel) (hN : (2 * b) * (2 * b) ≤ N)
    (hE : Emlp.init W (gensOf W (stdAtoms W custom) lie disc) solve rng fuel rin rin g ch L σ = .ok (E, σ'))
    {ps : List (BlockParams ℝ)} {w : DMat ℝ} {β : List ℝ} (hp : E.Shaped ps w β) (c : ℝ) (act : ℝ → ℝ)
    (hret : ∀ x : List ℝ, x.length = ein.dim W g → ∃ y, E.apply W c act ps w β x = .ok y)
    (hL : LocallyLipschitz (asMap (ein.dim W g) fun z => total (odeNet (E.apply W c act ps w β)) z 0)) {ts : List ℝ} (hts : Forward ts) {odeint : Odeint}
    {z0 : List (List ℝ)} (hz : ∀ z ∈ z0, z.length = ein.dim W g) (ho : odeint.Exact (ein.dim W g) (total (odeNet (E.apply W c act ps w β))) ts)
    (hb : odeint.Exact (z0.length * ein.dim W g)
      (fun y t => ((rowsOf (ein.dim W g) z0.length y).map fun z => total (odeNet (E.apply W c act ps w β)) z t).flatten) ts)
    {h : Matrix (Fin (W.d g)) (Fin (W.d g)) ℝ} (hg : Generated (lie g) (disc g) h) :
    ∃ zs, bOdeFlow odeint (odeNet (E.apply W c act ps w β)) (ein.dim W g) z0 ts = .ok zs ∧ zs.length = z0.length ∧
      bOdeFlow odeint (odeNet (E.apply W c act ps w β)) (ein.dim W g) (z0.map (ein.den g (Interp.elem W custom g h)).1.mulVec) ts
        = .ok (zs.map fun traj => traj.map (ein.den g (Interp.elem W custom g h)).1.mulVec) := by
  refine C92_ode_network (ein.den_pair (elem_dual (g := g) ok hg)).sq1 (fun x hx => ?_) hz hL hts ho hb
  obtain ⟨y, hy⟩ := hret x hx
  exact ⟨y, hy, (C40_widths hW hd hdN ok hsol hσ hrng hin hin hch hbi hbi hbf hN hE).2.2.2.2.2.2 ps w β hp c act x y hx hy,
    C40_equivariant hW hd hdN ok hsol hσ hrng hin hin hch hbi hbi hbf hN hE hp c act hg hx hy⟩

/-- **C91, batches.** `H` of a batch is the sum of the energies of its rows: `.sum()` reduces the batch as well. -/
theorem C91_batch {R : Type} [CommRing R] {n m : ℕ} {f : DMat R → Py (DMat R)} {network : List R → Py (List R)} (hf : Rowwise n m f network) (X : DMat R)
    (hX : X.cols = n) : ∃ ys : List R, ys.length = X.rows ∧ (∀ i < X.rows, hamiltonianNet network (X.row i) = .ok (ys.getD i 0)) ∧
      hamiltonianNetBatch f X = .ok ys.sum := by
  obtain ⟨Y, h1, h2, h3, h4⟩ := hf X hX
  refine ⟨(List.range Y.rows).map fun i => (Y.row i).sum, by simp [h2], fun i hi => ?_, ?_⟩
  · rw [hamiltonianNet, h4 i hi]
    show Except.ok _ = _
    congr 1
    rw [← h2] at hi
    rw [getD_eq_getElem _ _ (by simpa using hi)]
    simp
  · rw [hamiltonianNetBatch, h1]; rfl

end

/-- Cases: `V+V.T` for any group, and `4*V` (as in `DoubleSpringPendulum`) for a group flagged orthogonal. -/
example : PhaseSpace exW 0 3 (.add (.rep 0) (.dual (.rep 0))) := .dual (.rep 0)
example (W : World) (g : Gid) (h : W.orth g = true) : PhaseSpace W g (2 * W.d g) (.nsmul (2 + 2) (.rep 0)) := .copies 2 (.rep 0) h
/-- The network of C40's example, with output `Scalar`, meets the condition of `C91_network`; a batch of its rows, that of `C91_batch`. -/
example (I : Interp ℝ) : ∀ j < Expr.scalar.dim exW 0, ∑ i ∈ Finset.range (Expr.scalar.dim exW 0), (Expr.scalar.den 0 I).1.e i j = 1 := by
  intro j hj
  have : j = 0 := by simpa [Expr.dim] using hj
  subst this
  simp [Expr.dim, Expr.den, DMat.one, DMat.of]
example : Rowwise (R := ℝ) 2 2 (fun X => .ok X) (fun x => .ok x) := fun X hX => ⟨X, rfl, rfl, hX, fun _ _ => rfl⟩

/-! ## The double spring pendulum -/

/-- `M` on each of the four blocks of three coordinates. -/
noncomputable def fourBlocks (M : Matrix (Fin 3) (Fin 3) ℝ) : DMat ℝ := DMat.bdiag (replicate 4 (DMat.ofMatrix M))

theorem fourBlocks_mulVec (M : Matrix (Fin 3) (Fin 3) ℝ) (X : ℕ → ℝ) :
    (fourBlocks M).mulVec (List.ofFn fun i : Fin 12 => X i) = List.ofFn fun i : Fin 12 => blockAct 0 M X i := by
  have e : ∀ Y : ℕ → ℝ, (List.ofFn fun i : Fin 12 => Y i) = (List.range 4).flatMap fun i => List.ofFn (block 0 3 i Y) := by
    intro Y
    simp [List.ofFn_succ, block, List.range_succ]
  have hv : ∀ v : Fin 3 → ℝ, (DMat.ofMatrix M).mulVec (List.ofFn v) = List.ofFn (M.mulVec v) := by
    intro v
    rw [mulVec_ofFn (n := 3) ⟨rfl, rfl⟩]
    congr 1
    funext i
    rw [Matrix.mulVec, dotProduct]
    refine Finset.sum_congr rfl fun j _ => ?_
    rw [DMat.ofMatrix_e]
  rw [e, e]
  have := DMat.mulVec_bdiag (List.range 4) (fun _ => DMat.ofMatrix M) (fun i => List.ofFn (block 0 3 i X)) (by intro x _; rw [length_ofFn]; rfl)
  rw [map_const', length_range] at this
  rw [fourBlocks, this]
  refine flatMap_congr fun i _ => ?_
  rw [hv, block_act]

/-- **C91, the data.** The dynamics of the double spring pendulum commute with the rotations and reflections about the vertical axis,
wherever its energy is differentiable (`grad` is what `jax.grad` returns). -/
theorem C91_pendulum (M : Matrix (Fin 3) (Fin 3) ℝ) (hM : M.transpose * M = 1) (h3 : M 2 = ![0, 0, 1]) {H : List ℝ → ℝ}
    (hH : ∀ x : List ℝ, x.length = 12 → pendulumH x = .ok (H x)) {grad : List ℝ → List ℝ} {z : List ℝ} (hz : z.length = 12)
    (h1 : IsGradAt 12 H grad z) (h2 : IsGradAt 12 H grad ((fourBlocks M).mulVec z)) :
    ∃ v, hamiltonianDynamics grad z = .ok v ∧ v.length = 12 ∧ hamiltonianDynamics grad ((fourBlocks M).mulVec z) = .ok ((fourBlocks M).mulVec v) := by
  have hs : Symplectic 6 (fourBlocks M) := by
    rw [fourBlocks, show replicate 4 (DMat.ofMatrix M) = replicate 2 (DMat.ofMatrix M) ++ replicate 2 (DMat.ofMatrix M) from rfl, DMat.bdiag_append]
    have hsq : (DMat.bdiag (replicate 2 (DMat.ofMatrix M))).IsSq 6 := by
      have := bdiag_isSq (replicate 2 ()) (fun _ => DMat.ofMatrix M) (fun _ => 3) fun _ _ => ⟨rfl, rfl⟩
      simpa using this
    refine C91_symplectic hsq hsq ?_
    have hM' : M * M.transpose = 1 := mul_eq_one_comm.1 hM
    rw [DMat.transpose_bdiag, map_replicate]
    have := DMat.bdiag_mul (replicate 2 ()) (fun _ => DMat.ofMatrix M) (fun _ => (DMat.ofMatrix M).transpose) (by intro _ _; rfl)
    rw [map_replicate, map_replicate, map_replicate] at this
    rw [this, ← DMat.ofMatrix_transpose, ← DMat.ofMatrix_mul, hM', DMat.ofMatrix_one, DMat.bdiag_replicate, DMat.kron_one_one]
  refine C91_dynamics (d := 6) hs (fun x hx => ?_) hz h1 h2
  have e : x = List.ofFn fun i : Fin 12 => (fun k : ℕ => x.getD k 0) i := (ofFn_getD hx).symm
  obtain ⟨h, a1, a2⟩ := C85_pendulum M hM h3 fun k => x.getD k 0
  rw [← fourBlocks_mulVec, ← e, hH _ (by rw [DMat.length_mulVec, hs.1.1])] at a2
  rw [← e, hH x hx] at a1
  rw [Except.ok.inj a1, Except.ok.inj a2]

/-- The vector of partial derivatives: what `jax.grad` returns where `H` is differentiable. -/
noncomputable def gradOf (n : ℕ) (H : List ℝ → ℝ) (x : List ℝ) : List ℝ :=
  List.ofFn fun i : Fin n => fderiv ℝ (fun v : Fin n → ℝ => H (List.ofFn v)) (fun i : Fin n => x.getD i 0) (Pi.single i 1)

theorem gradOf_spec {n : ℕ} {H : List ℝ → ℝ} {x : List ℝ} (h : DifferentiableAt ℝ (fun v : Fin n → ℝ => H (List.ofFn v)) fun i : Fin n => x.getD i 0) :
    IsGradAt n H (gradOf n H) x := by
  refine ⟨by simp [gradOf], _, h.hasFDerivAt, fun v => ?_⟩
  rw [gradOf, Finset.sum_congr rfl fun i _ => by rw [getD_ofFn _ i]]
  conv_lhs => rw [← Finset.univ_sum_single v, map_sum]
  refine Finset.sum_congr rfl fun i _ => ?_
  rw [show (Pi.single i (v i) : Fin n → ℝ) = v i • Pi.single i 1 from by rw [← Pi.single_smul, smul_eq_mul, mul_one], map_smul, smul_eq_mul, mul_comm]

/-- The energy as a real number. -/
noncomputable def pendulumEnergy (z : List ℝ) : ℝ := (pendulumH z).toOption.getD 0

/-- The springs are not contracted to a point: the first mass is neither at the origin nor at the second mass. -/
def Stretched (z : List ℝ) : Prop := (z.getD 0 0 ≠ 0 ∨ z.getD 1 0 ≠ 0 ∨ z.getD 2 0 ≠ 0) ∧
  (z.getD 0 0 ≠ z.getD 3 0 ∨ z.getD 1 0 ≠ z.getD 4 0 ∨ z.getD 2 0 ≠ z.getD 5 0)

theorem sq3_ne {a b c : ℝ} (h : a ≠ 0 ∨ b ≠ 0 ∨ c ≠ 0) : a * a + b * b + c * c ≠ 0 := by
  intro e
  have ha := mul_self_nonneg a
  have hb := mul_self_nonneg b
  have hc := mul_self_nonneg c
  rcases h with h | h | h
  · exact h (mul_self_eq_zero.1 (by linarith))
  · exact h (mul_self_eq_zero.1 (by linarith))
  · exact h (mul_self_eq_zero.1 (by linarith))

theorem pendulum_differentiable {z : List ℝ} (hz : Stretched z) :
    DifferentiableAt ℝ (fun v : Fin 12 → ℝ => pendulumEnergy (List.ofFn v)) fun i : Fin 12 => z.getD i 0 := by
  have e : (fun v : Fin 12 → ℝ => pendulumEnergy (List.ofFn v)) = fun v =>
      1 / 2 * (v 6 * v 6 + v 7 * v 7 + v 8 * v 8) + 1 / 2 * (v 9 * v 9 + v 10 * v 10 + v 11 * v 11)
      + (1 / 2 * (Real.sqrt (v 0 * v 0 + v 1 * v 1 + v 2 * v 2) - 1) ^ 2
        + (Real.sqrt ((v 0 - v 3) * (v 0 - v 3) + (v 1 - v 4) * (v 1 - v 4) + (v 2 - v 5) * (v 2 - v 5)) - 1) ^ 2
        + (v 2 + v 5)) := by
    funext v
    have hX : List.ofFn v = List.ofFn fun i : Fin 12 => (fun k : ℕ => if h : k < 12 then v ⟨k, h⟩ else 0) i := by
      congr 1
      funext i
      simp
    rw [hX, pendulumEnergy, pendulum_eq fun k : ℕ => if h : k < 12 then v ⟨k, h⟩ else 0]
    simp [Except.toOption, dot, block, Fin.sum_univ_three]
  rw [e]
  have h1 := sq3_ne hz.1
  have h2 := sq3_ne (a := z.getD 0 0 - z.getD 3 0) (b := z.getD 1 0 - z.getD 4 0) (c := z.getD 2 0 - z.getD 5 0)
    (by rcases hz.2 with h | h | h
        · exact Or.inl (sub_ne_zero.2 h)
        · exact Or.inr (Or.inl (sub_ne_zero.2 h))
        · exact Or.inr (Or.inr (sub_ne_zero.2 h)))
  have s1 : DifferentiableAt ℝ (fun v : Fin 12 → ℝ => Real.sqrt (v 0 * v 0 + v 1 * v 1 + v 2 * v 2)) fun i : Fin 12 => z.getD i 0 :=
    DifferentiableAt.sqrt (by fun_prop) h1
  have s2 : DifferentiableAt ℝ (fun v : Fin 12 → ℝ => Real.sqrt ((v 0 - v 3) * (v 0 - v 3) + (v 1 - v 4) * (v 1 - v 4) + (v 2 - v 5) * (v 2 - v 5)))
      fun i : Fin 12 => z.getD i 0 := DifferentiableAt.sqrt (by fun_prop) h2
  fun_prop

/-- **C91, the data, at all stretched states.** With `jax.grad` the gradient, no further hypothesis is needed: the field at the rotated
state is the rotated field. -/
theorem C91_pendulum_stretched (M : Matrix (Fin 3) (Fin 3) ℝ) (hM : M.transpose * M = 1) (h3 : M 2 = ![0, 0, 1]) {z : List ℝ} (hz : z.length = 12)
    (hs : Stretched z) :
    ∃ v, hamiltonianDynamics (gradOf 12 pendulumEnergy) z = .ok v ∧ v.length = 12 ∧
      hamiltonianDynamics (gradOf 12 pendulumEnergy) ((fourBlocks M).mulVec z) = .ok ((fourBlocks M).mulVec v) := by
  have hH : ∀ x : List ℝ, x.length = 12 → pendulumH x = .ok (pendulumEnergy x) := by
    intro x hx
    obtain ⟨h, a1, -⟩ := C85_pendulum M hM h3 fun k => x.getD k 0
    rw [show (List.ofFn fun i : Fin 12 => (fun k : ℕ => x.getD k 0) i) = x from ofFn_getD hx] at a1
    rw [pendulumEnergy, a1]; rfl
  refine C91_pendulum M hM h3 hH hz (gradOf_spec (pendulum_differentiable hs)) (gradOf_spec (pendulum_differentiable ?_))
  -- the rotated state is stretched
  have e : z = List.ofFn fun i : Fin 12 => (fun k : ℕ => z.getD k 0) i := (ofFn_getD hz).symm
  have inj : ∀ v : Fin 3 → ℝ, M.mulVec v = 0 → v = 0 := by
    intro v h
    have := congrArg M.transpose.mulVec h
    rwa [Matrix.mulVec_mulVec, hM, Matrix.one_mulVec, Matrix.mulVec_zero] at this
  obtain ⟨X, hX⟩ : ∃ X : ℕ → ℝ, X = fun k => z.getD k 0 := ⟨_, rfl⟩
  have e' : (fourBlocks M).mulVec z = List.ofFn fun i : Fin 12 => blockAct 0 M X i := by
    rw [← fourBlocks_mulVec, hX, ← e]
  have hg : ∀ k : ℕ, k < 12 → ((fourBlocks M).mulVec z).getD k 0 = blockAct 0 M X k := by
    intro k hk
    rw [e']
    exact getD_ofFn (fun i : Fin 12 => blockAct 0 M X i) ⟨k, hk⟩
  have b0 := block_act (off := 0) M X 0
  have b1 := block_act (off := 0) M X 1
  constructor
  · by_contra hc
    push Not at hc
    rw [hg 0 (by decide), hg 1 (by decide), hg 2 (by decide)] at hc
    have h0 : block 0 3 0 (blockAct 0 M X) = 0 := by
      funext i
      fin_cases i
      · exact hc.1
      · exact hc.2.1
      · exact hc.2.2
    have := inj _ (b0.symm.trans h0)
    rcases hs.1 with h | h | h
    · exact h (by have := congrFun this 0; simpa [block, hX] using this)
    · exact h (by have := congrFun this 1; simpa [block, hX] using this)
    · exact h (by have := congrFun this 2; simpa [block, hX] using this)
  · by_contra hc
    push Not at hc
    rw [hg 0 (by decide), hg 1 (by decide), hg 2 (by decide), hg 3 (by decide), hg 4 (by decide), hg 5 (by decide)] at hc
    have h0 : block 0 3 0 (blockAct 0 M X) - block 0 3 1 (blockAct 0 M X) = 0 := by
      funext i
      fin_cases i
      · exact sub_eq_zero.2 hc.1
      · exact sub_eq_zero.2 hc.2.1
      · exact sub_eq_zero.2 hc.2.2
    rw [b0, b1, ← Matrix.mulVec_sub] at h0
    have := sub_eq_zero.1 (inj _ h0)
    rcases hs.2 with h | h | h
    · exact h (by have := congrFun this 0; simpa [block, hX] using this)
    · exact h (by have := congrFun this 1; simpa [block, hX] using this)
    · exact h (by have := congrFun this 2; simpa [block, hX] using this)

/-- A case: the reflection of the second axis, both masses hanging. -/
example : ∃ v, hamiltonianDynamics (gradOf 12 pendulumEnergy) [0, 0, -1, 0, 1, -2, 1, 0, 0, 0, 1, 0] = .ok v ∧ v.length = 12 ∧
    hamiltonianDynamics (gradOf 12 pendulumEnergy) ((fourBlocks !![1, 0, 0; 0, -1, 0; 0, 0, 1]).mulVec [0, 0, -1, 0, 1, -2, 1, 0, 0, 0, 1, 0]) =
      .ok ((fourBlocks !![1, 0, 0; 0, -1, 0; 0, 0, 1]).mulVec v) := by
  have h := C85_O2 1 0 0 (-1) (by ext i j; fin_cases i <;> fin_cases j <;> simp [Matrix.mul_apply, Fin.sum_univ_two])
  exact C91_pendulum_stretched _ h.1 h.2 rfl ⟨by simp, by simp⟩

/-! ## What fails -/

/-- A shear of the plane. -/
noncomputable def shear : DMat ℝ := DMat.of 2 2 fun i j => if i ≤ j then 1 else 0

/-- The angular momentum `q₁p₂ - q₂p₁` -/
noncomputable def angular (z : List ℝ) : ℝ := z.getD 0 0 * z.getD 3 0 - z.getD 1 0 * z.getD 2 0

/-- Its gradient. -/
noncomputable def angularGrad (z : List ℝ) : List ℝ := [z.getD 3 0, -z.getD 2 0, -z.getD 1 0, z.getD 0 0]

theorem shear_mulVec (z : List ℝ) (h : z.length = 4) :
    (DMat.bdiag [shear, shear]).mulVec z = [z.getD 0 0 + z.getD 1 0, z.getD 1 0, z.getD 2 0 + z.getD 3 0, z.getD 3 0] := by
  match z, h with
  | [a, b, c, d], _ =>
    rw [DMat.bdiag, DMat.bdiag, DMat.bdiag, DMat.bdiag2_zero]
    have := DMat.mulVec_bdiag2 shear shear [a, b] [c, d] rfl
    rw [show [a, b, c, d] = [a, b] ++ [c, d] from rfl, this]
    simp [DMat.mulVec, shear, DMat.of, List.range_succ, Finset.sum_range_succ]

/-- **C91 needs a representation of phase space.** With positions and momenta of the same type, an invariant `H` and a group that is not
orthogonal, the dynamics are not equivariant: for the shear on `2*V`, `H = q₁p₂ - q₂p₁` is invariant and its gradient exact, yet the field
at the sheared state is not the sheared field. -/
theorem C91_needs_symplectic : ∃ (M : DMat ℝ) (H : List ℝ → ℝ) (grad : List ℝ → List ℝ) (z v : List ℝ),
    M = DMat.bdiag [shear, shear] ∧ (∀ x : List ℝ, x.length = 4 → H (M.mulVec x) = H x) ∧ IsGrad 4 H grad ∧ z.length = 4 ∧
    hamiltonianDynamics grad z = .ok v ∧ hamiltonianDynamics grad (M.mulVec z) ≠ .ok (M.mulVec v) := by
  refine ⟨_, angular, angularGrad, [0, 1, 0, 0], [-1, 0, 0, 0], rfl, fun x hx => ?_, fun x hx => ⟨rfl, ?_⟩, rfl, ?_, ?_⟩
  · rw [shear_mulVec x hx]
    simp [angular]
    ring
  · refine ⟨x.getD 3 0 • ContinuousLinearMap.proj 0 - x.getD 2 0 • ContinuousLinearMap.proj 1 - x.getD 1 0 • ContinuousLinearMap.proj 2
      + x.getD 0 0 • ContinuousLinearMap.proj 3, ?_, fun v => ?_⟩
    · have hp : ∀ (i : Fin 4) (u : Fin 4 → ℝ), HasFDerivAt (fun v : Fin 4 → ℝ => v i) (ContinuousLinearMap.proj i : (Fin 4 → ℝ) →L[ℝ] ℝ) u := fun i u =>
        (ContinuousLinearMap.proj (R := ℝ) (φ := fun _ : Fin 4 => ℝ) i).hasFDerivAt
      have h := ((hp 0 fun i : Fin 4 => x.getD i 0).mul (hp 3 _)).sub ((hp 1 fun i : Fin 4 => x.getD i 0).mul (hp 2 _))
      refine (h.congr_fderiv ?_).congr_of_eventuallyEq (Filter.Eventually.of_forall fun v => ?_)
      · ext v
        simp
        ring
      · simp [angular, List.ofFn_succ]
    · simp [angularGrad, Fin.sum_univ_four]
      ring
  · simp [hamiltonianDynamics, symplecticForm, unpack, pack, angularGrad, bind, Except.bind, pure, Except.pure]
  · rw [shear_mulVec _ rfl, shear_mulVec _ rfl]
    simp [hamiltonianDynamics, symplecticForm, unpack, pack, angularGrad, bind, Except.bind, pure, Except.pure]

/-- **C91 needs an output whose sum is invariant.** A network that is equivariant, but with a vector as output, gives an `H` that is not
invariant: nothing in `EMLPH` checks `rep_out`. -/
theorem C91_needs_scalar : ∃ (network : List ℝ → Py (List ℝ)) (B : DMat ℝ), B.transpose.mul B = DMat.one 1 ∧
    (∀ x y : List ℝ, x.length = 1 → network x = .ok y → network (B.mulVec x) = .ok (B.mulVec y)) ∧
    hamiltonianNet network [1] ≠ hamiltonianNet network (B.mulVec [1]) := by
  refine ⟨fun x => .ok x, DMat.of 1 1 fun _ _ => -1, ?_, fun x y _ h => ?_, ?_⟩
  · refine DMat.ext rfl rfl fun i j hi hj => ?_
    have h0 : i = 0 := Nat.lt_one_iff.1 hi
    have h1 : j = 0 := Nat.lt_one_iff.1 hj
    subst h0 h1
    simp [DMat.mul, DMat.transpose, DMat.of, DMat.one]
  · rw [Except.ok.inj h]
  · intro h
    have := Except.ok.inj h
    simp [DMat.mulVec, DMat.of] at this
    norm_num at this

end Verif
