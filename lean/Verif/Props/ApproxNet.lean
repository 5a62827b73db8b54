import Mathlib.Analysis.SpecialFunctions.Sigmoid
import Verif.Lemmas.ApproxNet
import Verif.Props.Approx
import Verif.Props.Emlp

/-!
# C113: whole networks are equivariant up to a constant times the threshold of the solver
-/
namespace Verif
open List DMat

section
variable {W : World} {g : Gid} {N : ℕ} {custom : ∀ k g, AtomRep ℝ (W.d g) (W.usize k g)}
  {lie disc : ∀ g, List (Matrix (Fin (W.d g)) (Fin (W.d g)) ℝ)} {rng : Rng} {ein eout : Expr} {rin rout : Rep} {fuel b L : ℕ} {ch : Ch} {ws : List ℕ}

/-- **C113, networks.** Fix the arguments of `EMLP(rep_in,rep_out,G,ch,num_layers)`, an orthogonal group, the random draws, a continuously
differentiable activation, and bounds `P` for the parameters and `R` for the inputs.  There is one constant `K` such that, whatever the threshold
`ε`, the numerical routine that achieves it and the history of earlier calls: if the network returns `y` on `x`, then on `ρ_in(h)x` it returns a vector at
distance at most `Kκε` from `ρ_out(h)y`, for all words `h` in the generators, where `κ` is the size of the word. -/
theorem C113_network (hW : W.SingleOK g N) (hd : 2 ≤ W.d g) (hdN : W.d g ≤ N) (ok : GroupsOK W custom lie disc) (horth : W.orth g = true)
    (hrng : RngOK rng) (hin : RepArg W g N ein rin) (hout : RepArg W g N eout rout) (hch : ch.Widths W g N b L ws)
    (hbi : ein.dim W g ≤ b) (hbo : eout.dim W g ≤ b) (hbf : b < fuel) (hN : (2 * b) * (2 * b) ≤ N)
    (c : ℝ) {act : ℝ → ℝ} (hact : ContDiff ℝ 1 act) {P : ℝ} (hP : 0 ≤ P) (R : ℝ) (sg : Option Gid) (draws : ℕ) :
    ∃ K : ℝ, 0 ≤ K ∧ ∀ (ε : ℝ) (_ : 0 ≤ ε) (solve : ℕ → LinOp ℝ → Py (DMat ℝ)) (_ : SolverNear W (gensOf W (stdAtoms W custom) lie disc) ε solve)
      (σ : NetSt ℝ) (_ : NetReach W g (gensOf W (stdAtoms W custom) lie disc) solve σ) (_ : σ.sg = sg) (_ : σ.draws = draws) (E : Emlp ℝ) (σ' : NetSt ℝ)
      (_ : Emlp.init W (gensOf W (stdAtoms W custom) lie disc) solve rng fuel rin rout g ch L σ = .ok (E, σ'))
      (ps : List (BlockParams ℝ)) (w : DMat ℝ) (β : List ℝ) (_ : E.Shaped ps w β) (_ : ∀ p ∈ ps, p.Within P) (_ : nrm w.flat ≤ P) (_ : nrm β ≤ P)
      (x y : List ℝ) (_ : x.length = ein.dim W g) (_ : nrm x ≤ R) (_ : E.apply W c act ps w β x = .ok y)
      (κ : ℝ) (h : Matrix (Fin (W.d g)) (Fin (W.d g)) ℝ) (_ : Word (lie g) (disc g) κ h),
      ∃ y', E.apply W c act ps w β ((ein.den g (Interp.elem W custom g h)).1.mulVec x) = .ok y' ∧
        y.length = eout.dim W g ∧ y'.length = eout.dim W g ∧ dst y' ((eout.den g (Interp.elem W custom g h)).1.mulVec y) ≤ K * (κ * ε) := by
  have hbN : b ≤ N := by nlinarith [Nat.zero_le b]
  have near : ∀ (ε : ℝ) (solve : ℕ → LinOp ℝ → Py (DMat ℝ)) (_ : SolverNear W (gensOf W (stdAtoms W custom) lie disc) ε solve)
      (σ : NetSt ℝ) (_ : NetReach W g (gensOf W (stdAtoms W custom) lie disc) solve σ) (E : Emlp ℝ) (σ' : NetSt ℝ)
      (_ : Emlp.init W (gensOf W (stdAtoms W custom) lie disc) solve rng fuel rin rout g ch L σ = .ok (E, σ')), _ := fun ε solve hsol σ hσ E σ' hE =>
    (Emlp.init_near hW gensOf_sized hsol hrng hd hdN hbN hbf hch hin hout hbi hbo hN σ (hσ.near hsol) E σ' hE).2
  by_cases hex : ∃ (ε : ℝ) (solve : ℕ → LinOp ℝ → Py (DMat ℝ)) (σ : NetSt ℝ) (E : Emlp ℝ) (σ' : NetSt ℝ),
      SolverNear W (gensOf W (stdAtoms W custom) lie disc) ε solve ∧ NetReach W g (gensOf W (stdAtoms W custom) lie disc) solve σ ∧ σ.sg = sg ∧ σ.draws = draws ∧
      Emlp.init W (gensOf W (stdAtoms W custom) lie disc) solve rng fuel rin rout g ch L σ = .ok (E, σ')
  · obtain ⟨ε0, solve0, σ0, E0, σ0', hsol0, hσ0, hsg0, hdr0, hE0⟩ := hex
    obtain ⟨a0, o0, mids, -, -, hm, good0⟩ := near ε0 solve0 hsol0 σ0 hσ0 E0 σ0' hE0
    have hov : ∀ r ∈ mids, r.Over W g N := fun r hr => (hm.2.1 r hr).1
    by_cases hc : ∀ r ∈ mids, r.CanonicalSum W
    · obtain ⟨K, hK, H⟩ := net_moves hW c hact hP mids (E0.blocks.map Block.bil) R fun r hr => ⟨hov r hr, hc r hr⟩
      refine ⟨K, hK, fun ε hε solve hsol σ hσ hsg hdr E σ' hE ps w β hp hps nw nb x y hx nx hy κ h hh => ?_⟩
      obtain ⟨a, o, mids', ha, ho, hm', good⟩ := near ε solve hsol σ hσ E σ' hE
      obtain ⟨-, s1, s2⟩ := Emlp.init_same solve solve0 fuel rin rout ch L σ σ0 (hsg.trans hsg0.symm) (hdr.trans hdr0.symm) E σ' E0 σ0' hE hE0
      have : mids' = mids := by rw [← good.hidden, ← good0.hidden, s1]
      subst this
      have hI : MovesLittle W (gensOf W (stdAtoms W custom) lie disc) ε (κ * ε) (Interp.elem W custom g h) :=
        ⟨elem_dual ok hh.generated, elem_unit ok horth hh.generated, elem_perm ok hh.generated, mul_nonneg hh.nonneg hε,
          fun r hr v hv hn => near_elem ok horth hr hε hv hn hh⟩
      obtain ⟨z, z', e1, e2, l1, l2, d⟩ := H good s2 ha.1 ho.1 hp hps nw nb hI (by rw [hx, ha.2.1]) nx
      rw [hy] at e1
      have := Except.ok.inj e1
      subst this
      rw [← ha.2.2 ℝ _ hI.dual, ← ho.2.2 ℝ _ hI.dual]
      exact ⟨z', e2, by rw [l1, ho.2.1], by rw [l2, ho.2.1], d⟩
    · refine ⟨0, le_rfl, fun ε hε solve hsol σ hσ hsg hdr E σ' hE ps w β hp hps nw nb x y hx nx hy κ h hh => ?_⟩
      obtain ⟨a, o, mids', ha, ho, hm', good⟩ := near ε solve hsol σ hσ E σ' hE
      obtain ⟨-, s1, s2⟩ := Emlp.init_same solve solve0 fuel rin rout ch L σ σ0 (hsg.trans hsg0.symm) (hdr.trans hdr0.symm) E σ' E0 σ0' hE hE0
      have : mids' = mids := by rw [← good.hidden, ← good0.hidden, s1]
      subst this
      push Not at hc
      obtain ⟨e, he⟩ := good.raises hov hc c act hp.blocks.length_eq.symm x (w := w) (β := β)
      rw [he] at hy
      cases hy
  · exact ⟨0, le_rfl, fun ε hε solve hsol σ hσ hsg hdr E σ' hE => absurd ⟨ε, solve, σ, E, σ', hsol, hσ, hsg, hdr, hE⟩ hex⟩

/-- **C113, with the library's solver and activation.** With the SVD on constraint matrices of at most `3e7` entries, an iterative routine that
achieves `1e-5` on larger ones, and the sigmoid, a network
commutes with what `G.samples(N)` returns up to `K` times the size of the sample times `1e-5`. -/
theorem C113_samples (hW : W.SingleOK g N) (hd : 2 ≤ W.d g) (hdN : W.d g ≤ N) (ok : GroupsOK W custom lie disc) (horth : W.orth g = true)
    (hrng : RngOK rng) (hin : RepArg W g N ein rin) (hout : RepArg W g N eout rout) (hch : ch.Widths W g N b L ws)
    (hbi : ein.dim W g ≤ b) (hbo : eout.dim W g ≤ b) (hbf : b < fuel) (hN : (2 * b) * (2 * b) ≤ N) (c : ℝ) {P : ℝ} (hP : 0 ≤ P) (R : ℝ)
    (sg : Option Gid) (draws : ℕ) :
    ∃ K : ℝ, 0 ≤ K ∧ ∀ (svd : DMat ℝ → SVD ℝ) (krylov : ℕ → LinOp ℝ → Py (DMat ℝ))
      (_ : ∀ (f : Fac) C, f.constraintMatrix W (gensOf W (stdAtoms W custom) lie disc) = .ok C → IsSVD C.sem (svd C.sem))
      (_ : KrylovNear W (gensOf W (stdAtoms W custom) lie disc) 1e-5 krylov)
      (σ : NetSt ℝ) (_ : NetReach W g (gensOf W (stdAtoms W custom) lie disc) (nullSpace svd krylov) σ) (_ : σ.sg = sg) (_ : σ.draws = draws) (E : Emlp ℝ) (σ' : NetSt ℝ)
      (_ : Emlp.init W (gensOf W (stdAtoms W custom) lie disc) (nullSpace svd krylov) rng fuel rin rout g ch L σ = .ok (E, σ'))
      (ps : List (BlockParams ℝ)) (w : DMat ℝ) (β : List ℝ) (_ : E.Shaped ps w β) (_ : ∀ p ∈ ps, p.Within P) (_ : nrm w.flat ≤ P) (_ : nrm β ≤ P)
      (x y : List ℝ) (_ : x.length = ein.dim W g) (_ : nrm x ≤ R) (_ : E.apply W c Real.sigmoid ps w β x = .ok y)
      (z : List ℝ) (_ : z.length = (lie g).length) (ks : List (List ℤ)) (orders : List (List ℕ)) (_ : ∀ o ∈ orders, ∀ i ∈ o, i < (disc g).length)
      (h : Matrix (Fin (W.d g)) (Fin (W.d g)) ℝ) (_ : h = noise2sample z ks (lie g) (disc g) orders),
      ∃ y', E.apply W c Real.sigmoid ps w β ((ein.den g (Interp.elem W custom g h)).1.mulVec x) = .ok y' ∧
        dst y' ((eout.den g (Interp.elem W custom g h)).1.mulVec y) ≤ K * (sampleSize z ks orders * 1e-5) := by
  obtain ⟨K, hK, H⟩ := C113_network hW hd hdN ok horth hrng hin hout hch hbi hbo hbf hN c (contDiff_sigmoid.of_le le_top) hP R sg draws
  refine ⟨K, hK, fun svd krylov hsvd hkry σ hσ hsg hdr E σ' hE ps w β hp hps nw nb x y hx nx hy z hz ks orders hor h hh => ?_⟩
  obtain ⟨κ, hκ, hword⟩ := C110_samples z hz ks orders hor
  rw [← hh] at hword
  obtain ⟨y', h1, -, -, h2⟩ := H 1e-5 (by norm_num) (nullSpace svd krylov) (C110_solver svd krylov hsvd hkry) σ hσ hsg hdr E σ' hE ps w β hp hps nw nb x y hx nx hy κ h hword
  exact ⟨y', h1, h2.trans (mul_le_mul_of_nonneg_left (mul_le_mul_of_nonneg_right hκ (by norm_num)) hK)⟩

end

/-- **C113, what the constant may depend on.** The hidden representations and the bilinear layers of a network are determined by the arguments,
the random draws and the group remembered by `Scalar`: neither the numerical routine nor what was cached earlier has an influence. -/
theorem C113_solver_independent {W : World} {g : Gid} {gens : Gid → GenSet ℝ} {rng : Rng} {solve solve' : ℕ → LinOp ℝ → Py (DMat ℝ)} {fuel : ℕ} {rin rout : Rep} {ch : Ch}
    {L : ℕ} {σ τ σ' τ' : NetSt ℝ} {E E' : Emlp ℝ} (hsg : σ.sg = τ.sg) (hdr : σ.draws = τ.draws)
    (hE : Emlp.init W gens solve rng fuel rin rout g ch L σ = .ok (E, σ')) (hE' : Emlp.init W gens solve' rng fuel rin rout g ch L τ = .ok (E', τ')) :
    E.hidden = E'.hidden ∧ E.blocks.map Block.bil = E'.blocks.map Block.bil ∧ σ'.sg = τ'.sg ∧ σ'.draws = τ'.draws := by
  obtain ⟨h1, h2, h3⟩ := Emlp.init_same solve solve' fuel rin rout ch L σ τ hsg hdr E σ' E' τ' hE hE'
  exact ⟨h2, h3, h1.1, h1.2⟩

/-- The hypotheses of **C113** are met, for every threshold: `EMLP(V,Scalar,G,[12,7],_)` for the group with the rotations about the third axis. -/
example (ε : ℝ) : ∃ (solve : ℕ → LinOp ℝ → Py (DMat ℝ)) (rng : Rng) (E : Emlp ℝ) (σ' : NetSt ℝ),
    SolverNear exW (gensOf exW (stdAtoms exW fun k g => trivialAtom _ _) rotLies fun _ => []) ε solve ∧ RngOK rng ∧ exW.orth 0 = true ∧
    NetReach exW 0 (gensOf exW (stdAtoms exW fun k g => trivialAtom _ _) rotLies fun _ => []) solve ⟨freshSt, none, 0⟩ ∧
    RepArg exW 0 576 (.rep 0) Rep.V ∧ RepArg exW 0 576 .scalar (.key .scalar) ∧
    Ch.Widths exW 0 576 12 0 (.list [.int 12, .int 7]) [12, 7] ∧
    Emlp.init exW (gensOf exW (stdAtoms exW fun k g => trivialAtom _ _) rotLies fun _ => []) solve rng 13 Rep.V (.key .scalar) 0
      (.list [.int 12, .int 7]) 0 ⟨freshSt, none, 0⟩ = .ok (E, σ') ∧
    (∀ ps w β, E.Shaped ps w β → ∀ (c : ℝ) (act : ℝ → ℝ) (x : List ℝ), x.length = Expr.dim exW 0 (.rep 0) → ∃ y, E.apply exW c act ps w β x = .ok y) ∧
    Word (rotLies 0) [] 1 (NormedSpace.exp (rotLie (exW.d 0))) := by
  obtain ⟨s, h1, h2⟩ := exists_solver ℝ
  obtain ⟨rng, hr⟩ := exists_rng
  have ha : RepArg exW 0 576 (.rep 0) Rep.V := ⟨⟨by decide, Or.inl rfl⟩, by decide, Or.inl rfl⟩
  have ho : RepArg exW 0 576 .scalar (.key .scalar) := ⟨trivial, by decide, Or.inl rfl⟩
  have hc : Ch.Widths exW 0 576 12 0 (.list [.int 12, .int 7]) [12, 7] :=
    .list _ _ (.cons (.int 12 (by decide) (by decide)) (.cons (.int 7 (by decide) (by decide)) .nil))
  have hσ : NetReach exW 0 (gensOf exW (stdAtoms exW fun k g => trivialAtom _ _) rotLies fun _ => []) (fun _ => s) ⟨freshSt, none, 0⟩ :=
    .start none 0 fun h e => by simp at e
  obtain ⟨E, σ', hE, hrun⟩ := C40_total (L := 0) (fuel := 13) (exW_single 0 576 (by decide)) (by decide) (by decide) rot_groups (h1 _ _) (fun _ _ C _ => h2 C) hσ hr ha ho hc
    (.list _ fun c hc => by
      simp only [mem_cons, not_mem_nil, or_false] at hc
      rcases hc with rfl | rfl
      · exact ⟨12, by decide, rfl⟩
      · exact ⟨7, by decide, rfl⟩) (by decide) (by decide) (by decide) (by decide)
  refine ⟨_, rng, E, σ', SolverOK.near (h1 _ _) ε, hr, rfl, hσ, ha, ho, hc, hE, hrun, ?_⟩
  have := Word.exp (lie := rotLies 0) (disc := []) [1] rfl
  simpa [rotLies] using this

end Verif
