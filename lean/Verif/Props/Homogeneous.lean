import Verif.Lemmas.DualGens
import Verif.Spec.Degree
import Verif.Props.Emlp
import Verif.Props.Smooth
import Verif.Props.Solver
import Verif.Props.Classical
import Verif.Props.SmallGroups
import Mathlib.Analysis.SpecialFunctions.Pow.Continuity
import Mathlib.Analysis.Calculus.Deriv.Slope

/-! # C128: symmetric inputs give symmetric outputs; networks for groups with multiples of the identity -/
namespace Verif
open List

/-! ## Multiples of the identity -/
namespace DMat
variable {R : Type} [CommRing R]

/-- `c` times the identity. -/
def scal (n : ℕ) (c : R) : DMat R := of n n fun i j => if i = j then c else 0

theorem scal_e {n i j : ℕ} {c : R} (hi : i < n) (hj : j < n) : (scal n c).e i j = if i = j then c else 0 := of_e hi hj

theorem scal_one (n : ℕ) : scal n (1 : R) = one n := rfl

theorem bdiag2_scal (m n : ℕ) (c : R) : bdiag2 (scal m c) (scal n c) = scal (m + n) c := by
  refine ext rfl rfl ?_
  intro i j hi hj
  have hi : i < m + n := hi
  have hj : j < m + n := hj
  rw [scal_e hi hj]
  rcases lt_or_ge i m with h1 | h1 <;> rcases lt_or_ge j m with h2 | h2
  · rw [bdiag2_e11 h1 h2, scal_e h1 h2]
  · rw [bdiag2_e12 h1 h2, if_neg (by omega)]
  · rw [bdiag2_e21 h1 h2, if_neg (by omega)]
  · rw [bdiag2_e22 h1 h2]
    show (scal n c).e (i - m) (j - m) = _
    rw [scal_e (by omega) (by omega)]
    congr 1
    apply propext; omega

theorem bdiag_scal_two (m n : ℕ) (c : R) : bdiag [scal m c, scal n c] = scal (m + n) c := by
  rw [bdiag, bdiag_singleton, bdiag2_scal]

theorem bdiag_scal_replicate (m : ℕ) (c : R) : ∀ n : ℕ, bdiag (replicate n (scal m c)) = scal (n * m) c
  | 0 => ext (by simp [bdiag, scal]) (by simp [bdiag, scal]) fun i j hi _ => by simp [bdiag] at hi
  | n + 1 => by rw [replicate_succ, bdiag, bdiag_scal_replicate m c n, bdiag2_scal]; congr 1; ring

theorem kron_scal (m n : ℕ) (c d : R) : kron (scal m c) (scal n d) = scal (m * n) (c * d) := by
  refine ext rfl rfl ?_
  intro i j hi hj
  have hi : i < m * n := hi
  have hj : j < m * n := hj
  have hn : 0 < n := Nat.pos_of_ne_zero fun h => by simp [h] at hi
  have hi1 : i / n < m := Nat.div_lt_of_lt_mul (by rwa [mul_comm] at hi)
  have hj1 : j / n < m := Nat.div_lt_of_lt_mul (by rwa [mul_comm] at hj)
  have h := kron_e (A := scal m c) (B := scal n d) (i := i / n) (j := j / n) (i' := i % n) (j' := j % n) hi1 hj1 (Nat.mod_lt _ hn) (Nat.mod_lt _ hn)
  have e1 : ∀ k, k / n * n + k % n = k := fun k => by rw [mul_comm]; exact Nat.div_add_mod k n
  have h' : (kron (scal m c) (scal n d)).e (i / n * n + i % n) (j / n * n + j % n) = _ := h
  rw [e1, e1] at h'
  rw [h', scal_e hi hj, scal_e hi1 hj1, scal_e (Nat.mod_lt _ hn) (Nat.mod_lt _ hn)]
  by_cases e : i = j
  · subst e; simp
  · rw [if_neg e]
    by_cases e2 : i / n = j / n
    · rw [if_neg (c := i % n = j % n) fun e3 => e (by rw [← e1 i, ← e1 j, e2, e3]), mul_zero]
    · rw [if_neg e2, zero_mul]

theorem kronL_scal_replicate (m : ℕ) (c : R) : ∀ n : ℕ, kronL (replicate n (scal m c)) = scal (m ^ n) (c ^ n)
  | 0 => by rw [replicate_zero, kronL, pow_zero, pow_zero, scal_one]
  | n + 1 => by rw [replicate_succ, kronL, kronL_scal_replicate m c n, kron_scal, pow_succ', pow_succ']

theorem mulVec_scal {n : ℕ} (c : R) (v : List R) (h : v.length = n) : (scal n c).mulVec v = v.map (c * ·) := by
  apply vec_ext (by rw [length_mulVec, length_map, h]; rfl)
  intro i hi
  have hi : i < n := by rw [length_mulVec] at hi; exact hi
  rw [getD_mulVec (by exact hi), show (scal n c).cols = n from rfl,
    Finset.sum_congr rfl fun j hj => by rw [scal_e hi (Finset.mem_range.1 hj)]]
  simp [hi, getD_eq_getElem, h]

end DMat

/-- A multiple of the identity acts on a representation of degree `d` by the `d`-th power. -/
theorem Expr.Deg.den {W : World} {g : Gid} {custom : ∀ k g, AtomRep ℝ (W.d g) (W.usize k g)} {c : ℝ} (hc : c ≠ 0) {e : Expr} {d : ℤ} (h : e.Deg d) :
    e.den g (Interp.elem W custom g (c • 1)) = (DMat.scal (e.dim W g) (c ^ d), DMat.scal (e.dim W g) (c ^ (-d))) := by
  have hof : ∀ (n : ℕ) (x : ℝ), DMat.ofMatrix (x • (1 : Matrix (Fin n) (Fin n) ℝ)) = DMat.scal n x := fun n x => by
    refine DMat.ext rfl rfl fun i j hi hj => ?_
    have hi : i < n := hi
    have hj : j < n := hj
    rw [DMat.scal_e hi hj, DMat.ofMatrix, DMat.of_e hi hj]
    simp [hi, hj, Matrix.one_apply, Matrix.smul_apply]
  induction h with
  | scalar => simp only [Expr.den, Expr.dim, zpow_zero, neg_zero, DMat.scal_one]
  | vec =>
    have hi : (c • (1 : Matrix (Fin (W.d g)) (Fin (W.d g)) ℝ))⁻¹ = c⁻¹ • 1 := Matrix.inv_eq_left_inv (by
      rw [smul_mul_smul_comm, inv_mul_cancel₀ hc, one_smul, one_mul])
    have key : ∀ M : Matrix (Fin (W.d g)) (Fin (W.d g)) ℝ, M = c • 1 →
        (DMat.ofMatrix M, DMat.ofMatrix M⁻¹.transpose) = (DMat.scal (W.d g) c, DMat.scal (W.d g) c⁻¹) := by
      rintro M rfl
      rw [hi, Matrix.transpose_smul, Matrix.transpose_one, hof, hof]
    rw [zpow_one, zpow_neg_one]
    exact key _ (oneAt_same g _)
  | add _ _ iha ihb => simp only [Expr.den, Expr.dim, iha, ihb, DMat.bdiag_scal_two]
  | mul _ _ iha ihb => simp only [Expr.den, Expr.dim, iha, ihb, DMat.kron_scal, zpow_add₀ hc, neg_add]
  | dual _ iha => simp only [Expr.den, Expr.dim, iha, neg_neg]
  | nsmul n _ iha => simp only [Expr.den, Expr.dim, iha, DMat.bdiag_scal_replicate]
  | addNat n _ iha => simp only [Expr.den, Expr.dim, iha, zpow_zero, neg_zero, ← DMat.scal_one, DMat.bdiag_scal_two]
  | natAdd n _ iha =>
    simp only [Expr.den, Expr.dim, iha, zpow_zero, neg_zero, ← DMat.scal_one, DMat.bdiag_scal_two, add_comm]
  | pow n _ iha =>
    rename_i d _
    simp only [Expr.den, Expr.dim, iha, DMat.kronL_scal_replicate]
    rw [show -((n : ℤ) * d) = (-d) * n by ring, mul_comm (n : ℤ) d, zpow_mul, zpow_mul, zpow_natCast, zpow_natCast]
  | rshift _ _ iha ihb =>
    rename_i d d' _ _
    simp only [Expr.den, Expr.dim, iha, ihb, DMat.kron_scal]
    rw [← zpow_add₀ hc, ← zpow_add₀ hc, show -(d' - d) = -d' + d by ring, sub_eq_add_neg]
  | lshift _ _ iha ihb =>
    rename_i d d' _ _
    simp only [Expr.den, Expr.dim, iha, ihb, DMat.kron_scal]
    rw [← zpow_add₀ hc, ← zpow_add₀ hc, show -(d - d') = -d + d' by ring, sub_eq_add_neg]

/-! ## One variable -/

theorem rpow_scaling {φ : ℝ → ℝ} {D s A : ℝ} (hD : HasDerivAt φ D 0) (h : ∀ t, 0 < t → φ t = t ^ s * A) :
    (s = 0 → A = φ 0) ∧ (s < 0 → A = 0) ∧ (0 < s → s < 1 → A = 0) ∧ (s = 1 → A = D) := by
  have hcont : Filter.Tendsto φ (nhdsWithin 0 (Set.Ioi 0)) (nhds (φ 0)) := hD.continuousAt.tendsto.mono_left nhdsWithin_le_nhds
  have hslope : Filter.Tendsto (fun t => t⁻¹ * (φ t - φ 0)) (nhdsWithin 0 (Set.Ioi 0)) (nhds D) := by
    have := hasDerivAt_iff_tendsto_slope.1 hD
    refine (this.mono_left (nhdsWithin_mono _ fun t ht => ne_of_gt ht)).congr fun t => ?_
    rw [slope_def_field, sub_zero, div_eq_inv_mul]
  have hpow : ∀ p : ℝ, 0 < p → Filter.Tendsto (fun t : ℝ => t ^ p) (nhdsWithin 0 (Set.Ioi 0)) (nhds 0) := fun p hp => by
    have := (Real.continuousAt_rpow_const 0 p (.inr hp.le)).tendsto.mono_left (nhdsWithin_le_nhds (s := Set.Ioi (0 : ℝ)))
    rwa [Real.zero_rpow hp.ne'] at this
  have hconst : ∀ {F : ℝ → ℝ} {B : ℝ}, Filter.Tendsto F (nhdsWithin 0 (Set.Ioi 0)) (nhds B) → (∀ t, 0 < t → F t = A) → A = B := fun hF hA =>
    tendsto_nhds_unique_of_eventuallyEq (tendsto_const_nhds (f := nhdsWithin (0 : ℝ) (Set.Ioi 0))) hF
      (Filter.eventuallyEq_of_mem self_mem_nhdsWithin fun t ht => (hA t ht).symm)
  refine ⟨?_, fun hs => ?_, fun hs hs1 => ?_, ?_⟩
  · rintro rfl
    exact hconst hcont fun t ht => by rw [h t ht, Real.rpow_zero, one_mul]
  · have := hconst ((hpow (-s) (by linarith)).mul hcont) fun t ht => by
      rw [h t ht, ← mul_assoc, ← Real.rpow_add ht, neg_add_cancel, Real.rpow_zero, one_mul]
    rwa [zero_mul] at this
  · have h0 : φ 0 = 0 := by
      have := tendsto_nhds_unique_of_eventuallyEq hcont ((hpow s hs).mul_const A) (Filter.eventuallyEq_of_mem self_mem_nhdsWithin fun t ht => h t ht)
      rwa [zero_mul] at this
    have := hconst ((hpow (1 - s) (by linarith)).mul hslope) fun t ht => by
      have ht0 : t ≠ 0 := ne_of_gt ht
      rw [h t ht, h0, sub_zero, ← Real.rpow_neg_one t, ← mul_assoc, ← mul_assoc, ← Real.rpow_add ht, ← Real.rpow_add ht,
        show 1 - s + -1 + s = 0 by ring, Real.rpow_zero, one_mul]
    rwa [zero_mul] at this
  · rintro rfl
    have h0 : φ 0 = 0 := by
      have := tendsto_nhds_unique_of_eventuallyEq hcont ((hpow 1 one_pos).mul_const A) (Filter.eventuallyEq_of_mem self_mem_nhdsWithin fun t ht => h t ht)
      rwa [zero_mul] at this
    exact hconst hslope fun t ht => by
      rw [h t ht, h0, sub_zero, Real.rpow_one, ← mul_assoc, inv_mul_cancel₀ (ne_of_gt ht), one_mul]

section
variable {W : World} {g : Gid} {N : ℕ} {custom : ∀ k g, AtomRep ℝ (W.d g) (W.usize k g)}
  {lie disc : ∀ g, List (Matrix (Fin (W.d g)) (Fin (W.d g)) ℝ)} {solve : ℕ → LinOp ℝ → Py (DMat ℝ)} {rng : Rng} {σ σ' : NetSt ℝ}
  {ein eout : Expr} {rin rout : Rep} {fuel b L : ℕ} {ch : Ch} {ws : List ℕ} {E : Emlp ℝ}

/-- **C128.** A network cannot break symmetry: whatever group element fixes the input fixes the output. -/
theorem C128_curie (hW : W.SingleOK g N) (hd : 2 ≤ W.d g) (hdN : W.d g ≤ N) (ok : GroupsOK W custom lie disc)
    (hsol : SolverOK W (gensOf W (stdAtoms W custom) lie disc) solve) (hσ : NetReach W g (gensOf W (stdAtoms W custom) lie disc) solve σ)
    (hrng : RngOK rng) (hin : RepArg W g N ein rin) (hout : RepArg W g N eout rout) (hch : ch.Widths W g N b L ws)
    (hbi : ein.dim W g ≤ b) (hbo : eout.dim W g ≤ b) (hbf : b < fuel) (hN : (2 * b) * (2 * b) ≤ N)
    (hE : Emlp.init W (gensOf W (stdAtoms W custom) lie disc) solve rng fuel rin rout g ch L σ = .ok (E, σ'))
    {ps : List (BlockParams ℝ)} {w : DMat ℝ} {β : List ℝ} (hp : E.Shaped ps w β) (c : ℝ) (act : ℝ → ℝ)
    {h : Matrix (Fin (W.d g)) (Fin (W.d g)) ℝ} (hg : Generated (lie g) (disc g) h) {x y : List ℝ} (hx : x.length = ein.dim W g)
    (hfix : (ein.den g (Interp.elem W custom g h)).1.mulVec x = x) (hy : E.apply W c act ps w β x = .ok y) :
    (eout.den g (Interp.elem W custom g h)).1.mulVec y = y := by
  have := C40_equivariant hW hd hdN ok hsol hσ hrng hin hout hch hbi hbo hbf hN hE hp c act hg hx hy
  rw [hfix, hy] at this
  exact (Except.ok.inj this).symm

/-- **C128.** If the group contains the multiple `t` of the identity, a network between representations of degrees `p` and `q` satisfies
`f(tᵖ x) = t^q f(x)`. -/
theorem C128_homogeneous (hW : W.SingleOK g N) (hd : 2 ≤ W.d g) (hdN : W.d g ≤ N) (ok : GroupsOK W custom lie disc)
    (hsol : SolverOK W (gensOf W (stdAtoms W custom) lie disc) solve) (hσ : NetReach W g (gensOf W (stdAtoms W custom) lie disc) solve σ)
    (hrng : RngOK rng) (hin : RepArg W g N ein rin) (hout : RepArg W g N eout rout) (hch : ch.Widths W g N b L ws)
    (hbi : ein.dim W g ≤ b) (hbo : eout.dim W g ≤ b) (hbf : b < fuel) (hN : (2 * b) * (2 * b) ≤ N)
    (hE : Emlp.init W (gensOf W (stdAtoms W custom) lie disc) solve rng fuel rin rout g ch L σ = .ok (E, σ'))
    {ps : List (BlockParams ℝ)} {w : DMat ℝ} {β : List ℝ} (hp : E.Shaped ps w β) (c : ℝ) (act : ℝ → ℝ)
    {t : ℝ} (ht : t ≠ 0) (hg : Generated (lie g) (disc g) (t • 1)) {p q : ℤ} (hdi : ein.Deg p) (hdo : eout.Deg q)
    {x y : List ℝ} (hx : x.length = ein.dim W g) (hy : E.apply W c act ps w β x = .ok y) :
    E.apply W c act ps w β (x.map (t ^ p * ·)) = .ok (y.map (t ^ q * ·)) := by
  have h := C40_equivariant hW hd hdN ok hsol hσ hrng hin hout hch hbi hbo hbf hN hE hp c act hg hx hy
  obtain ⟨-, -, -, -, -, -, hlen⟩ := C40_widths hW hd hdN ok hsol hσ hrng hin hout hch hbi hbo hbf hN hE
  rw [hdi.den ht, hdo.den ht, DMat.mulVec_scal _ _ hx, DMat.mulVec_scal _ _ (hlen ps w β hp c act x y hx hy)] at h
  exact h

/-- **C128.** If this multiple acts trivially on inputs but not on outputs, then the network is zero, whatever the parameters and the input.  With `t = -1`:
no network for `O(n)`, `SO(2m)`, `Sp(m)`, `SO13` or `O13` computes tensors of odd order from tensors of even order, except zero. -/
theorem C128_dead (hW : W.SingleOK g N) (hd : 2 ≤ W.d g) (hdN : W.d g ≤ N) (ok : GroupsOK W custom lie disc)
    (hsol : SolverOK W (gensOf W (stdAtoms W custom) lie disc) solve) (hσ : NetReach W g (gensOf W (stdAtoms W custom) lie disc) solve σ)
    (hrng : RngOK rng) (hin : RepArg W g N ein rin) (hout : RepArg W g N eout rout) (hch : ch.Widths W g N b L ws)
    (hbi : ein.dim W g ≤ b) (hbo : eout.dim W g ≤ b) (hbf : b < fuel) (hN : (2 * b) * (2 * b) ≤ N)
    (hE : Emlp.init W (gensOf W (stdAtoms W custom) lie disc) solve rng fuel rin rout g ch L σ = .ok (E, σ'))
    {ps : List (BlockParams ℝ)} {w : DMat ℝ} {β : List ℝ} (hp : E.Shaped ps w β) (c : ℝ) (act : ℝ → ℝ)
    {t : ℝ} (ht : t ≠ 0) (hg : Generated (lie g) (disc g) (t • 1)) {p q : ℤ} (hdi : ein.Deg p) (hdo : eout.Deg q) (htp : t ^ p = 1) (htq : t ^ q ≠ 1)
    {x y : List ℝ} (hx : x.length = ein.dim W g) (hy : E.apply W c act ps w β x = .ok y) : y = replicate (eout.dim W g) 0 := by
  have h := C128_homogeneous hW hd hdN ok hsol hσ hrng hin hout hch hbi hbo hbf hN hE hp c act ht hg hdi hdo hx hy
  obtain ⟨-, -, -, -, -, -, hlen⟩ := C40_widths hW hd hdN ok hsol hσ hrng hin hout hch hbi hbo hbf hN hE
  have hl := hlen ps w β hp c act x y hx hy
  rw [htp] at h
  simp only [one_mul, map_id'] at h
  rw [hy] at h
  have h := Except.ok.inj h
  refine eq_replicate_iff.2 ⟨hl, fun z hz => ?_⟩
  obtain ⟨i, hi, rfl⟩ := List.getElem_of_mem hz
  have h1 : (y.map (t ^ q * ·))[i]'(by simpa using hi) = y[i] := by
    simp only [← h]
  rw [List.getElem_map] at h1
  have h2 : (t ^ q - 1) * y[i] = 0 := by linear_combination h1
  rcases mul_eq_zero.1 h2 with h3 | h3
  · exact absurd (by linarith) htq
  · exact h3

/-- **C128.** A representation on which a multiple of the identity in the group acts as another number than one has no invariant vectors:
`equivariant_basis()` has no columns. -/
theorem C128_empty (hW : W.SingleOK g N) (e : Expr) (he : e.OK W g) (hN : e.bound W g ≤ N) (ok : GroupsOK W custom lie disc)
    (hsol : SolverOK W (gensOf W (stdAtoms W custom) lie disc) solve)
    (htot : SolverRuns W (gensOf W (stdAtoms W custom) lie disc) solve) (calls : List SolveCall)
    {t : ℝ} (ht : t ≠ 0) (hg : Generated (lie g) (disc g) (t • 1)) {d : ℤ} (hde : e.Deg d) (htd : t ^ d ≠ 1) :
    ∃ r L, e.eval W g = .ok r ∧
      (r.equivariantBasis W (gensOf W (stdAtoms W custom) lie disc) solve (session W (gensOf W (stdAtoms W custom) lie disc) solve calls freshSt)).1 =
        .ok L ∧ L.sem.cols = 0 := by
  have hdual := gensOf_dual ok
  obtain ⟨r, L, hr, hL, hQ⟩ := C21_expressions hW e he hN hdual hsol htot calls
  refine ⟨r, L, hr, hL, ?_⟩
  obtain ⟨r', hr', hwf, -, hsz, hm⟩ := e.eval_good hW he hN
  rw [hr] at hr'
  cases hr'
  by_contra hne
  have hpos : 0 < L.sem.cols := Nat.pos_of_ne_zero hne
  have h1 : ∀ a : List ℝ, a.length = L.sem.cols → (L.sem.mulVec a).map (t ^ d * ·) = L.sem.mulVec a := by
    intro a ha
    have hv : (L.sem.mulVec a).length = e.dim W g := by rw [DMat.length_mulVec, hQ.rows]
    have hf := (hQ.span _ hv).2 ⟨a, ha, rfl⟩
    have := fixed_one_group (stdAtoms_hom ok.hom) ok.unit hwf (hv.trans hsz.symm) ((Expr.fixed_iff hW e he hN hr hdual hv).2 hf) g hg
    rw [show r.mat (Interp.at W (stdAtoms W custom) (oneAt W g (t • 1))) = (e.den g (Interp.elem W custom g (t • 1))).1 from hm ℝ _ (elem_dual ok hg),
      hde.den ht, DMat.mulVec_scal _ _ hv] at this
    exact this
  have h2 : ∀ a : List ℝ, a.length = L.sem.cols → L.sem.mulVec a = replicate (e.dim W g) 0 := by
    intro a ha
    have h3 := h1 a ha
    refine eq_replicate_iff.2 ⟨by rw [DMat.length_mulVec, hQ.rows], fun z hz => ?_⟩
    obtain ⟨i, hi, rfl⟩ := List.getElem_of_mem hz
    have h4 : ((L.sem.mulVec a).map (t ^ d * ·))[i]'(by simpa using hi) = (L.sem.mulVec a)[i] := by simp only [h3]
    rw [List.getElem_map] at h4
    rcases mul_eq_zero.1 (show (t ^ d - 1) * (L.sem.mulVec a)[i] = 0 by linear_combination h4) with h5 | h5
    · exact absurd (by linarith) htd
    · exact h5
  have h3 := hQ.orth
  have h4 := congrArg (fun M => M.mulVec (replicate L.sem.cols 1)) h3
  rw [DMat.mulVec_mul _ _ _ rfl, h2 _ (by simp), DMat.mulVec_one _ (by simp)] at h4
  have h5 := congrArg (fun v : List ℝ => v.getD 0 0) h4
  rw [DMat.getD_mulVec (by exact hpos)] at h5
  rw [Finset.sum_eq_zero fun j _ => by simp [List.getD_replicate], getD_eq_getElem _ _ (by simpa using hpos)] at h5
  simp at h5

/-- **C128.** If the group contains all positive multiples of the identity (`Scaling(n)`, `GL(n)`) and the activation is differentiable, then equivariance leaves
little: with inputs of degree `p ≠ 0` and outputs of degree `q`, the network is constant if `q = 0`, zero if `q / p` is negative or strictly between zero and
one, and a linear map if `q = p`. -/
theorem C128_rigid (hW : W.SingleOK g N) (hd : 2 ≤ W.d g) (hdN : W.d g ≤ N) (ok : GroupsOK W custom lie disc)
    (hsol : SolverOK W (gensOf W (stdAtoms W custom) lie disc) solve) (hσ : NetReach W g (gensOf W (stdAtoms W custom) lie disc) solve σ)
    (hrng : RngOK rng) (hin : RepArg W g N ein rin) (hout : RepArg W g N eout rout) (hch : ch.Widths W g N b L ws)
    (hbi : ein.dim W g ≤ b) (hbo : eout.dim W g ≤ b) (hbf : b < fuel) (hN : (2 * b) * (2 * b) ≤ N)
    (hE : Emlp.init W (gensOf W (stdAtoms W custom) lie disc) solve rng fuel rin rout g ch L σ = .ok (E, σ'))
    {ps : List (BlockParams ℝ)} {w : DMat ℝ} {β : List ℝ} (hp : E.Shaped ps w β) (c : ℝ) {act : ℝ → ℝ} (hact : ContDiff ℝ 1 act)
    (hall : ∀ t : ℝ, 0 < t → Generated (lie g) (disc g) (t • 1)) {p q : ℤ} (hdi : ein.Deg p) (hdo : eout.Deg q) (hp0 : p ≠ 0) :
    (q = 0 → ∃ y0, ∀ x y, x.length = ein.dim W g → E.apply W c act ps w β x = .ok y → y = y0) ∧
    (p * q < 0 ∨ (0 < p * q ∧ |q| < |p|) → ∀ x y, x.length = ein.dim W g → E.apply W c act ps w β x = .ok y → y = replicate (eout.dim W g) 0) ∧
    (q = p → ∃ M : DMat ℝ, M.rows = eout.dim W g ∧ M.cols = ein.dim W g ∧
      ∀ x y, x.length = ein.dim W g → E.apply W c act ps w β x = .ok y → y = M.mulVec x) := by
  obtain ⟨-, -, -, -, -, -, hlen⟩ := C40_widths hW hd hdN ok hsol hσ hrng hin hout hch hbi hbo hbf hN hE
  by_cases hex : ∃ x y, x.length = ein.dim W g ∧ E.apply W c act ps w β x = .ok y
  swap
  · exact ⟨fun _ => ⟨[], fun x y hx hy => absurd ⟨x, y, hx, hy⟩ hex⟩, fun _ x y hx hy => absurd ⟨x, y, hx, hy⟩ hex,
      fun _ => ⟨.of _ _ 0, rfl, rfl, fun x y hx hy => absurd ⟨x, y, hx, hy⟩ hex⟩⟩
  obtain ⟨x0, y0, hx0, hy0⟩ := hex
  obtain ⟨f, hf, hsm⟩ := C111_input c hact E ps w β hy0
  obtain ⟨D, hD⟩ : ∃ D : ℕ → (Fin x0.length → ℝ) →L[ℝ] ℝ, D = fun i => fderiv ℝ (fun v : Fin x0.length → ℝ => (f (List.ofFn v)).getD i 0) 0 := ⟨_, rfl⟩
  have main : ∀ x y, x.length = ein.dim W g → E.apply W c act ps w β x = .ok y → y.length = eout.dim W g ∧ ∀ i,
      ((q : ℝ) / p = 0 → y.getD i 0 = (f (List.ofFn (0 : Fin x0.length → ℝ))).getD i 0) ∧ ((q : ℝ) / p < 0 → y.getD i 0 = 0) ∧
      (0 < (q : ℝ) / p → (q : ℝ) / p < 1 → y.getD i 0 = 0) ∧ ((q : ℝ) / p = 1 → y.getD i 0 = D i fun j => x.getD j 0) := by
    intro x y hx hy
    refine ⟨hlen ps w β hp c act x y hx hy, fun i => ?_⟩
    obtain ⟨v, hv⟩ : ∃ v : Fin x0.length → ℝ, v = fun j : Fin x0.length => x.getD j.val 0 := ⟨_, rfl⟩
    have hxv : ∀ s : ℝ, List.ofFn (s • v) = x.map (s * ·) := fun s => by
      refine List.ext_getElem (by simp [hx, hx0]) fun j h1 h2 => ?_
      have hj : j < x.length := by simpa using h2
      rw [List.getElem_ofFn, getElem_map, Pi.smul_apply, smul_eq_mul]
      exact congrArg _ ((congrFun hv _).trans (getD_eq_getElem _ _ hj))
    have hder : HasDerivAt (fun s : ℝ => (f (List.ofFn (s • v))).getD i 0) (D i v) 0 := by
      have h1 : HasDerivAt (fun s : ℝ => s • v) v 0 := by simpa using (hasDerivAt_id (0 : ℝ)).smul_const v
      have h2 := ((hsm i).differentiable (by simp)).differentiableAt (x := (0 : ℝ) • v) |>.hasFDerivAt
      have h3 := h2.comp_hasDerivAt (0 : ℝ) h1
      rw [zero_smul] at h3
      rw [hD]
      exact h3
    have hscale : ∀ s : ℝ, 0 < s → (f (List.ofFn (s • v))).getD i 0 = s ^ ((q : ℝ) / p) * y.getD i 0 := by
      intro s hs
      have ht : 0 < s ^ ((p : ℝ)⁻¹) := Real.rpow_pos_of_pos hs _
      have hpR : (p : ℝ) ≠ 0 := by exact_mod_cast hp0
      have h1 := C128_homogeneous hW hd hdN ok hsol hσ hrng hin hout hch hbi hbo hbf hN hE hp c act ht.ne' (hall _ ht) hdi hdo hx hy
      have e1 : (s ^ ((p : ℝ)⁻¹)) ^ p = s := by
        rw [← Real.rpow_intCast, ← Real.rpow_mul hs.le, inv_mul_cancel₀ hpR, Real.rpow_one]
      have e2 : (s ^ ((p : ℝ)⁻¹)) ^ q = s ^ ((q : ℝ) / p) := by
        rw [← Real.rpow_intCast, ← Real.rpow_mul hs.le, div_eq_inv_mul]
      rw [e1, e2, (hf _ (by simp [hx, hx0])).1] at h1
      rw [hxv, Except.ok.inj h1]
      by_cases hi : i < y.length
      · rw [getD_eq_getElem _ _ hi, getD_eq_getElem _ _ (by simpa using hi), getElem_map]
      · rw [getD_eq_default _ _ (by simpa using hi), getD_eq_default _ _ (by simpa using hi), mul_zero]
    have h4 := rpow_scaling hder hscale
    rw [zero_smul, hv] at h4
    exact h4
  have hpR : (p : ℝ) ≠ 0 := by exact_mod_cast hp0
  have hzero : ∀ y : List ℝ, y.length = eout.dim W g → (∀ i, y.getD i 0 = 0) → y = replicate (eout.dim W g) 0 := fun y hl h0 =>
    DMat.vec_ext (by simpa using hl) fun i hi => by
      rw [h0 i, getD_eq_getElem _ _ (by simpa [hl] using hi), getElem_replicate]
  refine ⟨fun hq => ⟨y0, fun x y hx hy => ?_⟩, fun hq x y hx hy => ?_, fun hq => ?_⟩
  · have hs : (q : ℝ) / p = 0 := by rw [hq]; simp
    obtain ⟨l1, h1⟩ := main x y hx hy
    obtain ⟨l2, h2⟩ := main x0 y0 hx0 hy0
    exact DMat.vec_ext (l1.trans l2.symm) fun i _ => ((h1 i).1 hs).trans ((h2 i).1 hs).symm
  · obtain ⟨l1, h1⟩ := main x y hx hy
    refine hzero y l1 fun i => ?_
    rcases hq with hq | ⟨hq, hlt⟩
    · have : (p : ℝ) * q < 0 := by exact_mod_cast hq
      refine (h1 i).2.1 ?_
      rcases mul_neg_iff.1 this with ⟨a, b⟩ | ⟨a, b⟩
      · exact div_neg_of_neg_of_pos b a
      · exact div_neg_of_pos_of_neg b a
    · have h3 : (0 : ℝ) < (p : ℝ) * q := by exact_mod_cast hq
      have h4 : |(q : ℝ)| < |(p : ℝ)| := by exact_mod_cast hlt
      have h5 : 0 < (q : ℝ) / p := by
        rcases mul_pos_iff.1 h3 with ⟨a, b⟩ | ⟨a, b⟩
        · exact div_pos b a
        · exact div_pos_of_neg_of_neg b a
      refine (h1 i).2.2.1 h5 ?_
      rw [← abs_of_pos h5, abs_div, div_lt_one (abs_pos.2 hpR)]
      exact h4
  · have hs : (q : ℝ) / p = 1 := by rw [hq]; exact div_self hpR
    refine ⟨.of (eout.dim W g) (ein.dim W g) fun i j => D i fun k => if k.val = j then 1 else 0, rfl, rfl, fun x y hx hy => ?_⟩
    obtain ⟨l1, h1⟩ := main x y hx hy
    refine DMat.vec_ext (by rw [DMat.length_mulVec, l1]; rfl) fun i hi => ?_
    rw [(h1 i).2.2.2 hs]
    have hi' : i < eout.dim W g := l1 ▸ hi
    rw [DMat.getD_mulVec (by exact hi')]
    show _ = ∑ j ∈ Finset.range (ein.dim W g), _
    have hlin : (fun k : Fin x0.length => x.getD k 0) = ∑ j : Fin x0.length, x.getD j 0 • fun k : Fin x0.length => if k.val = j.val then (1 : ℝ) else 0 := by
      funext k
      rw [Finset.sum_apply]
      rw [Finset.sum_eq_single k (fun j _ hj => by simp [Fin.val_inj, hj.symm]) (by simp)]
      simp
    rw [hlin, map_sum, ← hx0, Finset.sum_range]
    refine Finset.sum_congr rfl fun j _ => ?_
    rw [map_smul, smul_eq_mul, mul_comm, DMat.of_e hi' j.2]

end

/-! ## Which groups contain which multiples -/

/-- **C128.** `Scaling(n)` and `GL(n)` contain all positive multiples of the identity. -/
theorem C128_multiples (n : ℕ) :
    (∃ G, scalingGroup n = .ok G ∧ ∀ t : ℝ, 0 < t → Generated (G.lie.map (denseGen n)) (G.disc.map (denseGen n)) (t • 1)) ∧
    ∃ a : Arr3 ℝ, glLie n = .ok a ∧ ∀ t : ℝ, 0 < t → Generated (a.mats n) [] (t • 1) := by
  obtain ⟨G, h1, -, -, -, h2, -⟩ := C101_scaling n
  obtain ⟨a, h3, h4⟩ := C115_gl n
  refine ⟨⟨G, h1, fun t ht => (h2 _).2 ⟨t, ht, rfl⟩⟩, a, h3, fun t ht => (h4 _).2 ?_⟩
  rw [Matrix.det_smul, Matrix.det_one, mul_one]
  positivity

/-- **C128.** `O(n)`, `SO(2m)`, `Sp(m)`, `SO13`, `O13` and `O11` contain minus the identity. -/
theorem C128_minus_one :
    (∀ n, 0 < n → ∃ a b : Arr3 ℝ, soLie n = .ok a ∧ oDisc n = .ok b ∧ Generated (a.mats n) (b.mats n) ((-1 : ℝ) • 1)) ∧
    (∀ m, ∃ a : Arr3 ℝ, soLie (2 * m) = .ok a ∧ Generated (a.mats (2 * m)) [] ((-1 : ℝ) • 1)) ∧
    (∀ m, ∃ a : Arr3 ℝ, spLie m = .ok a ∧ Generated (a.mats (2 * m)) [] ((-1 : ℝ) • 1)) ∧
    (∃ a : Arr3 ℝ, so13pLie = .ok a ∧ Generated (a.mats 4) ((so13Disc : Arr3 ℝ).mats 4) ((-1 : ℝ) • 1)) ∧
    (∃ a b : Arr3 ℝ, so13pLie = .ok a ∧ o13Disc = .ok b ∧ Generated (a.mats 4) (b.mats 4) ((-1 : ℝ) • 1)) ∧
    ∃ b : Arr3 ℝ, o11Disc = .ok b ∧ Generated ((so11pLie : Arr3 ℝ).mats 2) (b.mats 2) ((-1 : ℝ) • 1) := by
  have hform : ∀ {n : ℕ} (J : Matrix (Fin n) (Fin n) ℝ), ((-1 : ℝ) • (1 : Matrix (Fin n) (Fin n) ℝ)).transpose * J * ((-1 : ℝ) • 1) = J := by
    intro n J
    simp
  refine ⟨fun n hn => ?_, fun m => ?_, fun m => ?_, ?_, ?_, ?_⟩
  · obtain ⟨a, b, h1, h2, h3⟩ := C115_o n hn
    exact ⟨a, b, h1, h2, (h3 _).2 (by simp)⟩
  · obtain ⟨a, h1, h2⟩ := C115_so (2 * m)
    exact ⟨a, h1, (h2 _).2 ⟨by simp, by rw [Matrix.det_smul]; simp [pow_mul]⟩⟩
  · obtain ⟨a, h1, h2⟩ := C115_sp m
    exact ⟨a, h1, (h2 _).2 (hform _)⟩
  · obtain ⟨a, h1, h2⟩ := C115_so13
    exact ⟨a, h1, (h2 _).2 ⟨hform _, by rw [Matrix.det_smul]; simp; norm_num⟩⟩
  · obtain ⟨a, b, h1, h2, h3⟩ := C115_o13
    exact ⟨a, b, h1, h2, (h3 _).2 (hform _)⟩
  · obtain ⟨b, h1, h2⟩ := C115_o11
    exact ⟨b, h1, (h2 _).2 (hform _)⟩

/-! ## Instances -/

/-- Group `1` scales. -/
def dilateLies (g : Gid) : List (Matrix (Fin (exW.d g)) (Fin (exW.d g)) ℝ) := if g = 1 then [1] else []

theorem dilate_groups : GroupsOK exW (fun k g => trivialAtom _ _) dilateLies fun _ => [] where
  unit g h hh := by simp at hh
  orth g hg := by
    have h1 : g ≠ 1 := by simpa [exW] using hg
    refine ⟨fun A hA => ?_, by simp⟩
    rw [dilateLies, if_neg h1] at hA
    simp at hA
  hom _ _ := trivialAtom_hom _ _
  user k g _ M _ := by simp [trivialAtom]
  perm g hg := by
    have h2 : g = 2 := by simpa [exW] using hg
    refine ⟨?_, by simp⟩
    rw [dilateLies, if_neg (by rw [h2]; decide)]

/-- Groups `0` and `3` contain minus the identity. -/
def signDiscs (g : Gid) : List (Matrix (Fin (exW.d g)) (Fin (exW.d g)) ℝ) := if g = 2 then [] else [-1]

theorem sign_groups : GroupsOK exW (fun k g => trivialAtom _ _) (fun _ => []) signDiscs where
  unit g h hh := by
    rw [signDiscs] at hh
    split_ifs at hh
    · simp at hh
    · rw [mem_singleton.1 hh, Matrix.det_neg, Matrix.det_one]
      simp
  orth g _ := by
    refine ⟨by simp, fun h hh => ?_⟩
    rw [signDiscs] at hh
    split_ifs at hh
    · simp at hh
    · rw [mem_singleton.1 hh]
      simp
  hom _ _ := trivialAtom_hom _ _
  user k g _ M _ := by simp [trivialAtom]
  perm g hg := by
    have h2 : g = 2 := by simpa [exW] using hg
    refine ⟨rfl, ?_⟩
    rw [signDiscs, if_pos h2]
    simp

/-- `C128_rigid`: a network `V → V` for the scalings of the plane exists; all the hypotheses hold, with `p = q = 1`. -/
example : ∃ (solve : ℕ → LinOp ℝ → Py (DMat ℝ)) (rng : Rng) (E : Emlp ℝ) (σ' : NetSt ℝ),
    SolverOK exW (gensOf exW (stdAtoms exW fun k g => trivialAtom _ _) dilateLies fun _ => []) solve ∧ RngOK rng ∧
    RepArg exW 1 576 (.rep 0) Rep.V ∧ Ch.Widths exW 1 576 12 0 (.list [.int 12, .int 7]) [12, 7] ∧
    Emlp.init exW (gensOf exW (stdAtoms exW fun k g => trivialAtom _ _) dilateLies fun _ => []) solve rng 13 Rep.V Rep.V 1
      (.list [.int 12, .int 7]) 0 ⟨freshSt, none, 0⟩ = .ok (E, σ') ∧
    (∀ t : ℝ, 0 < t → Generated (dilateLies 1) [] (t • 1)) ∧ Expr.Deg (.rep 0) 1 := by
  obtain ⟨s, h1, h2⟩ := exists_solver ℝ
  obtain ⟨rng, hr⟩ := exists_rng
  have ha : RepArg exW 1 576 (.rep 0) Rep.V := ⟨⟨by decide, Or.inl rfl⟩, by decide, Or.inl rfl⟩
  have hc : Ch.Widths exW 1 576 12 0 (.list [.int 12, .int 7]) [12, 7] :=
    .list _ _ (.cons (.int 12 (by decide) (by decide)) (.cons (.int 7 (by decide) (by decide)) .nil))
  have hσ : NetReach exW 1 (gensOf exW (stdAtoms exW fun k g => trivialAtom _ _) dilateLies fun _ => []) (fun _ => s) ⟨freshSt, none, 0⟩ :=
    .start none 0 fun h e => by simp at e
  obtain ⟨E, σ', hE, -⟩ := C40_total (L := 0) (fuel := 13) (exW_single 1 576 (by decide)) (by decide) (by decide) dilate_groups (h1 _ _) (fun _ _ C _ => h2 C) hσ hr ha ha hc
    (.list _ fun c hc => by
      simp only [mem_cons, not_mem_nil, or_false] at hc
      rcases hc with rfl | rfl
      · exact ⟨12, by decide, rfl⟩
      · exact ⟨7, by decide, rfl⟩) (by decide) (by decide) (by decide) (by decide)
  obtain ⟨G, -, -, hdG, hlG, hG, -⟩ := C101_scaling 2
  refine ⟨_, rng, E, σ', h1 _ _, hr, ha, hc, hE, fun t ht => ?_, .vec⟩
  have := (hG (t • 1)).2 ⟨t, ht, rfl⟩
  rw [hlG, hdG] at this
  exact this

/-- `C128_curie`, `C128_homogeneous` and `C128_dead`: a network from matrices to vectors for a group that contains minus the identity exists; the hypotheses hold
with `t = -1`, `p = 2`, `q = 1`, so that this network is zero.  The element `-1` fixes every input. -/
example : ∃ (solve : ℕ → LinOp ℝ → Py (DMat ℝ)) (rng : Rng) (E : Emlp ℝ) (σ' : NetSt ℝ) (r : Rep),
    SolverOK exW (gensOf exW (stdAtoms exW fun k g => trivialAtom _ _) (fun _ => []) signDiscs) solve ∧ RngOK rng ∧
    RepArg exW 0 576 (.mul (.rep 0) (.rep 0)) r ∧ RepArg exW 0 576 (.rep 0) Rep.V ∧ Ch.Widths exW 0 576 12 0 (.list [.int 12, .int 7]) [12, 7] ∧
    Emlp.init exW (gensOf exW (stdAtoms exW fun k g => trivialAtom _ _) (fun _ => []) signDiscs) solve rng 13 r Rep.V 0
      (.list [.int 12, .int 7]) 0 ⟨freshSt, none, 0⟩ = .ok (E, σ') ∧
    Generated [] (signDiscs 0) ((-1 : ℝ) • 1) ∧ Expr.Deg (.mul (.rep 0) (.rep 0)) 2 ∧ (-1 : ℝ) ^ (2 : ℤ) = 1 ∧ (-1 : ℝ) ^ (1 : ℤ) ≠ 1 := by
  obtain ⟨s, h1, h2⟩ := exists_solver ℝ
  obtain ⟨rng, hr⟩ := exists_rng
  obtain ⟨r, hr'⟩ : ∃ r, Expr.evalFree exW (.mul (.rep 0) (.rep 0)) = .ok r := ⟨_, rfl⟩
  have ha : RepArg exW 0 576 (.mul (.rep 0) (.rep 0)) r := ⟨⟨⟨by decide, Or.inl rfl⟩, by decide, Or.inl rfl⟩, by decide, Or.inl hr'⟩
  have hv : RepArg exW 0 576 (.rep 0) Rep.V := ⟨⟨by decide, Or.inl rfl⟩, by decide, Or.inl rfl⟩
  have hc : Ch.Widths exW 0 576 12 0 (.list [.int 12, .int 7]) [12, 7] :=
    .list _ _ (.cons (.int 12 (by decide) (by decide)) (.cons (.int 7 (by decide) (by decide)) .nil))
  have hσ : NetReach exW 0 (gensOf exW (stdAtoms exW fun k g => trivialAtom _ _) (fun _ => []) signDiscs) (fun _ => s) ⟨freshSt, none, 0⟩ :=
    .start none 0 fun h e => by simp at e
  obtain ⟨E, σ', hE, -⟩ := C40_total (L := 0) (fuel := 13) (exW_single 0 576 (by decide)) (by decide) (by decide) sign_groups (h1 _ _) (fun _ _ C _ => h2 C) hσ hr ha hv hc
    (.list _ fun c hc => by
      simp only [mem_cons, not_mem_nil, or_false] at hc
      rcases hc with rfl | rfl
      · exact ⟨12, by decide, rfl⟩
      · exact ⟨7, by decide, rfl⟩) (by decide) (by decide) (by decide) (by decide)
  refine ⟨_, rng, E, σ', r, h1 _ _, hr, ha, hv, hc, hE, ?_, .mul .vec .vec, by norm_num, by norm_num⟩
  rw [neg_one_smul]
  exact .gen (by simp [signDiscs])

/-- The hypotheses of `C128_empty` are met by vectors under a group that contains minus the identity. -/
example : ∃ (solve : ℕ → LinOp ℝ → Py (DMat ℝ)) (r : Rep) (B : LinOp ℝ), (Expr.rep 0).eval exW 0 = .ok r ∧
    (r.equivariantBasis exW (gensOf exW (stdAtoms exW fun k g => trivialAtom _ _) (fun _ => []) signDiscs) solve
      (session exW (gensOf exW (stdAtoms exW fun k g => trivialAtom _ _) (fun _ => []) signDiscs) solve [] freshSt)).1 = .ok B ∧ B.sem.cols = 0 := by
  obtain ⟨s, s1, s2⟩ := exists_solver ℝ
  obtain ⟨r, B, h⟩ := C128_empty (custom := fun k g => trivialAtom _ _) (lie := fun _ => []) (disc := signDiscs) (exW_single 0 576 (by decide)) (.rep 0)
    ⟨by decide, Or.inl rfl⟩ (by decide) sign_groups (s1 _ _) (fun _ _ C _ => s2 C) [] (t := -1) (by norm_num)
    (by rw [neg_one_smul]; exact .gen (by simp [signDiscs])) .vec (by norm_num)
  exact ⟨_, r, B, h⟩

end Verif
