import Verif.Lemmas.ApproxWord
import Verif.Lemmas.ApproxSolver
import Verif.Props.Layers
import Mathlib.Algebra.Order.BigOperators.Ring.Finset

/-! How far a linear layer built from approximate bases is from being equivariant. -/
namespace Verif
open List DMat

section
variable {𝕜 : Type} [RCLike 𝕜]

theorem toEu_nrm {n : ℕ} {v : List 𝕜} (hv : v.length = n) : ‖toEu n v‖ = nrm v := by
  rw [nrm, ← toEu_norm hv, Real.sqrt_sq (norm_nonneg _)]

theorem toEu_dst {n : ℕ} {x y : List 𝕜} (hx : x.length = n) : ‖toEu n x - toEu n y‖ = dst x y := by
  rw [dst, ← toEu_dist hx, Real.sqrt_sq (norm_nonneg _)]

theorem toEu_add {n : ℕ} {x y : List 𝕜} (hx : x.length = n) (hy : y.length = n) : toEu n (zipWith (· + ·) x y) = toEu n x + toEu n y := by
  ext i
  show (zipWith (· + ·) x y).getD i 0 = x.getD i 0 + y.getD i 0
  rw [getD_eq_getElem _ _ (by simp [hx, hy]), getD_eq_getElem _ _ (by simp [hx]), getD_eq_getElem _ _ (by simp [hy]), getElem_zipWith]

theorem mulVec_dist2 {M N : DMat 𝕜} (hr : M.rows = N.rows) (hc : M.cols = N.cols) {z : List 𝕜} (hz : z.length = M.cols) :
    dist2 (M.mulVec z) (N.mulVec z) ≤ dist2 M.flat N.flat * nrm2 z := by
  rw [dist2_flat hr hc]
  unfold dist2 nrm2
  rw [Finset.sum_comm' (t' := Finset.range M.rows) (s' := fun _ => Finset.range M.cols) (by intro x y; simp [and_comm]), Finset.sum_mul, length_mulVec]
  refine Finset.sum_le_sum fun i hi => ?_
  have hi' := Finset.mem_range.1 hi
  rw [getD_mulVec hi', getD_mulVec (hr ▸ hi'), hc, ← Finset.sum_sub_distrib, hz, ← hc]
  have h1 : ‖∑ j ∈ Finset.range M.cols, (M.e i j * z.getD j 0 - N.e i j * z.getD j 0)‖ ≤
      ∑ j ∈ Finset.range M.cols, ‖M.e i j - N.e i j‖ * ‖z.getD j 0‖ := by
    refine (norm_sum_le _ _).trans (le_of_eq (Finset.sum_congr rfl fun j _ => ?_))
    rw [← sub_mul, norm_mul]
  refine (pow_le_pow_left₀ (norm_nonneg _) h1 2).trans ((Finset.sum_mul_sq_le_sq_mul_sq _ _ _).trans (le_of_eq ?_))
  congr 1
  refine Finset.sum_congr rfl fun j hj => ?_
  rw [getD_col _ hi', getD_col _ (hr ▸ hi')]

end

theorem bessel {n : ℕ} {Q : DMat ℝ} {F F' : List ℝ → Prop} (h : NearBasis n Q F F') {v : List ℝ} (hv : v.length = n) :
    nrm2 ((Q.mul Q.transpose).mulVec v) ≤ nrm2 v := by
  obtain ⟨u, hu⟩ : ∃ u, u = Q.transpose.mulVec v := ⟨_, rfl⟩
  have hul : u.length = Q.cols := by rw [hu]; simp
  rw [mulVec_mul _ _ _ rfl, ← hu]
  have h1 : nrm2 (Q.mulVec u) = nrm2 u := nrm2_unitary h.orth hul
  have h2 : nrm2 u = ∑ i ∈ Finset.range n, v.getD i 0 * (Q.mulVec u).getD i 0 := by
    have e : ∀ i ∈ Finset.range n, v.getD i 0 * (Q.mulVec u).getD i 0 = ∑ j ∈ Finset.range Q.cols, u.getD j 0 * (Q.e i j * v.getD i 0) := fun i hi => by
      rw [getD_mulVec (by rw [h.rows]; exact Finset.mem_range.1 hi), Finset.mul_sum]
      exact Finset.sum_congr rfl fun j _ => by ring
    rw [Finset.sum_congr rfl e, Finset.sum_comm]
    unfold nrm2
    rw [hul]
    refine Finset.sum_congr rfl fun j hj => ?_
    rw [← Finset.mul_sum]
    have : u.getD j 0 = ∑ i ∈ Finset.range n, Q.e i j * v.getD i 0 := by
      rw [hu, getD_mulVec (by simpa using hj), transpose_cols, h.rows]
      exact Finset.sum_congr rfl fun i _ => by rw [transpose_e]
    rw [← this, Real.norm_eq_abs, sq_abs, sq]
  have h3 := Finset.sum_mul_sq_le_sq_mul_sq (Finset.range n) (fun i => v.getD i 0) fun i => (Q.mulVec u).getD i 0
  rw [← h2] at h3
  have e : ∀ x : List ℝ, x.length = n → ∑ i ∈ Finset.range n, x.getD i 0 ^ 2 = nrm2 x := fun x hx => by
    unfold nrm2
    rw [hx]
    exact Finset.sum_congr rfl fun i _ => by rw [Real.norm_eq_abs, sq_abs]
  rw [e v hv, e _ (by simp [h.rows]), h1] at h3
  rw [h1]
  by_contra hc
  push Not at hc
  have := nrm2_nonneg v
  nlinarith

theorem bessel_nrm {n : ℕ} {Q P : DMat ℝ} {F F' : List ℝ → Prop} (h : NearBasis n Q F F') (e : P = Q.mul Q.transpose) {v : List ℝ} (hv : v.length = n) :
    nrm (P.mulVec v) ≤ nrm v := by
  rw [e]; exact Real.sqrt_le_sqrt (bessel h hv)

section
variable {W : World} {custom : ∀ k g, AtomRep ℝ (W.d g) (W.usize k g)} {lie disc : ∀ g, List (Matrix (Fin (W.d g)) (Fin (W.d g)) ℝ)}
  {g : Gid} {h : Matrix (Fin (W.d g)) (Fin (W.d g)) ℝ}

theorem ofMatrix_unit {n : ℕ} {M : Matrix (Fin n) (Fin n) ℝ} (h : M.transpose * M = 1) : (DMat.ofMatrix M).Unit n := by
  refine ⟨⟨rfl, rfl⟩, ?_⟩
  have e : (DMat.ofMatrix M).conjTranspose = DMat.ofMatrix M.transpose := by
    refine DMat.ext rfl rfl fun i j hi hj => ?_
    rw [conjTranspose_e, DMat.ofMatrix_e _ (by exact hj) (by exact hi), DMat.ofMatrix_e _ (by exact hi) (by exact hj)]
    rfl
  rw [e, ← DMat.ofMatrix_mul, h, DMat.ofMatrix_one]

theorem elem_unit (ok : GroupsOK W custom lie disc) (ho : W.orth g = true) (hg : Generated (lie g) (disc g) h) :
    (Interp.elem W custom g h).Unit W := by
  have key : ∀ k g', ((stdAtoms W custom k g').rho (oneAt W g h g')).transpose * (stdAtoms W custom k g').rho (oneAt W g h g') = 1 := by
    intro k g'
    by_cases e : g' = g
    · subst e
      cases k with
      | zero => exact ok.orthogonal ho (generated_oneAt hg g')
      | succ k => exact ok.user (k + 1) g' ho _ (generated_oneAt hg g')
    · rw [oneAt_ne e, (stdAtoms W custom k g').one]; simp
  refine ⟨fun k g' => ofMatrix_unit (key k g'), fun k g' => ofMatrix_unit ?_⟩
  have h1 : ((stdAtoms W custom k g').rho (oneAt W g h g'))⁻¹ = ((stdAtoms W custom k g').rho (oneAt W g h g')).transpose :=
    Matrix.inv_eq_left_inv (key k g')
  rw [h1, Matrix.transpose_transpose]
  exact key k g'

theorem near_elem {ε : ℝ} {r : Rep} (ok : GroupsOK W custom lie disc) (ho : W.orth g = true) (hr : r.WF W) (hε : 0 ≤ ε) {v : List ℝ}
    (hv : v.length = r.size W) (hnear : r.NearFixed W (gensOf W (stdAtoms W custom) lie disc) ε v) {κ : ℝ} (hw : Word (lie g) (disc g) κ h) :
    dst ((r.mat (Interp.elem W custom g h)).mulVec v) v ≤ κ * ε * nrm v := by
  have := near_word (stdAtoms_hom ok.hom) (ok.unit g) hr (fun h hh => Rep.mat_unit (elem_unit ok ho hh) hr) hε hv hnear hw
  rwa [toEu_dst (by rw [length_mulVec, (Rep.mat_sq (at_sized _) hr).1]), toEu_nrm hv] at this

end

section
variable {W : World} {g : Gid} {N : ℕ} {gens : Gid → GenSet ℝ} {solve : ℕ → LinOp ℝ → Py (DMat ℝ)} {ε : ℝ}

/-- What a `Linear` layer knows after it is built, when the solver is approximate. -/
structure LinearL.Near (W : World) (gens : Gid → GenSet ℝ) (ε : ℝ) (a b : Rep) (L : LinearL ℝ) : Prop where
  nin : L.nin = a.size W
  nout : L.nout = b.size W
  w : ∃ r : Rep, r.WF W ∧ r.size W = b.size W * a.size W ∧
    (∀ I : Interp ℝ, I.Dual W → ∀ M : DMat ℝ, M.rows = b.size W → M.cols = a.size W →
      ∃ X : DMat ℝ, X.IsSq (a.size W) ∧ X.mul (a.mat I) = DMat.one (a.size W) ∧ (r.mat I).mulVec M.flat = (((b.mat I).mul M).mul X).flat) ∧
    ∃ Q, NearBasis (r.size W) Q (r.Fixed W gens) (r.NearFixed W gens ε) ∧ L.Pw.sem = Q.mul Q.transpose
  b : ∃ Q, NearBasis (b.size W) Q (b.Fixed W gens) (b.NearFixed W gens ε) ∧ L.Pb.sem = Q.mul Q.transpose

/-- The state invariant. -/
structure NetSt.Near (W : World) (g : Gid) (gens : Gid → GenSet ℝ) (ε : ℝ) (σ : NetSt ℝ) : Prop where
  cache : CacheInv W gens (NearNull ε) σ.solve
  sg : SgOK W g σ.sg

/-- The computation `m` keeps the state invariant, and its result, if any, satisfies `P`. -/
def NetM.MeetsN {α : Type} (W : World) (g : Gid) (gens : Gid → GenSet ℝ) (ε : ℝ) (m : NetM ℝ α) (P : α → Prop) : Prop :=
  ∀ σ, NetSt.Near W g gens ε σ → ∀ a σ', m σ = .ok (a, σ') → NetSt.Near W g gens ε σ' ∧ P a

theorem NetM.MeetsN.bind {α β : Type} {m : NetM ℝ α} {f : α → NetM ℝ β} {P : α → Prop} {Q : β → Prop}
    (hm : NetM.MeetsN W g gens ε m P) (hf : ∀ a, P a → NetM.MeetsN W g gens ε (f a) Q) : NetM.MeetsN W g gens ε (m >>= f) Q := by
  intro σ hσ b σ' h
  change (m σ >>= fun p => f p.1 p.2) = _ at h
  cases hm' : m σ with
  | error e => rw [hm'] at h; exact absurd h (by simp [Bind.bind, Except.bind])
  | ok p =>
    obtain ⟨h1, h2⟩ := hm σ hσ p.1 p.2 hm'
    rw [hm'] at h
    exact hf p.1 h2 p.2 h1 b σ' h

theorem NetM.MeetsN.pure {α : Type} {a : α} {P : α → Prop} (h : P a) : NetM.MeetsN W g gens ε (Pure.pure a : NetM ℝ α) P := by
  intro σ hσ b σ' e
  have e' : (Except.ok (a, σ) : Py (α × NetSt ℝ)) = .ok (b, σ') := e
  have := Prod.mk.inj (Except.ok.inj e')
  rw [← this.1, ← this.2]; exact ⟨hσ, h⟩

theorem NetM.MeetsN.lift {α : Type} {f : World → Py α} {P : α → Prop}
    (h : ∀ x, SgOK W g x → ∀ a, f (W.setG x) = .ok a → P a) : NetM.MeetsN W g gens ε (NetM.rep (RepM.lift W f) : NetM ℝ α) P := by
  intro σ hσ a σ' e
  unfold NetM.rep RepM.lift at e
  cases hf : f (W.setG σ.sg) with
  | error e' => rw [hf] at e; exact absurd e (by simp [Bind.bind, Except.bind])
  | ok b =>
    rw [hf] at e
    have := Prod.mk.inj (Except.ok.inj e)
    rw [← this.1, ← this.2]
    exact ⟨⟨hσ.cache, hσ.sg⟩, h _ hσ.sg b hf⟩

theorem NetM.MeetsN.solver {α : Type} {m : World → SolveM ℝ α} {P : α → Prop}
    (h : ∀ x, SgOK W g x → Verif.MeetsN W gens ε (m (W.setG x)) P) : NetM.MeetsN W g gens ε (NetM.solver W m) P := by
  intro σ hσ a σ' e
  obtain ⟨h1, h2⟩ := h _ hσ.sg σ.solve hσ.cache
  unfold NetM.solver at e
  match hm : m (W.setG σ.sg) σ.solve with
  | (.error e', s) => rw [hm] at e; exact absurd e (by simp)
  | (.ok b, s) =>
    rw [hm] at e h1 h2
    have := Prod.mk.inj (Except.ok.inj e)
    rw [← this.1, ← this.2]
    exact ⟨⟨h1, hσ.sg⟩, h2 b rfl⟩

section
variable (hW : W.SingleOK g N) (hs : GenSet.Sized W gens) (hsol : SolverNear W gens ε solve) {a b : Rep} (ha : a.Over W g N)
  (hb : b.Over W g N)
include hW hs hsol hb

theorem projector_near_net : NetM.MeetsN W g gens ε (NetM.solver W fun W => b.equivariantProjector W gens solve) fun L =>
    ∃ Q, NearBasis (b.size W) Q (b.Fixed W gens) (b.NearFixed W gens ε) ∧ L.sem = Q.mul Q.transpose := by
  refine NetM.MeetsN.solver fun x hx => ?_
  have hb' := hb.setG hW hx
  exact Rep.projector_near (W := W.setG x) (solve := solve) (setG_gsized.2 hs) hsol hb'.wf (Rep.single_onePerGroup hb'.wf hb'.key)

include ha in
theorem LinearL.init_near (hN : b.size W * a.size W ≤ N) :
    NetM.MeetsN W g gens ε (LinearL.init W gens solve a b) (LinearL.Near W gens ε a b) := by
  unfold LinearL.init
  refine NetM.MeetsN.bind (P := fun r => r.Over W g N ∧ r.size W = b.size W * a.size W ∧
    ∀ I : Interp ℝ, I.Dual W → ∀ M : DMat ℝ, M.rows = b.size W → M.cols = a.size W →
      ∃ X : DMat ℝ, X.IsSq (a.size W) ∧ X.mul (a.mat I) = DMat.one (a.size W) ∧
        (r.mat I).mulVec M.flat = (((b.mat I).mul M).mul X).flat) ?_ ?_
  · refine NetM.MeetsN.lift fun x hx r hr => ?_
    have ha' := ha.setG hW hx
    have hb' := hb.setG hW hx
    obtain ⟨r', h1, -, h2, h3, h4, h5⟩ := Rep.rshift_spec (hW.setG hx) ha'.wf hb'.wf ha'.key hb'.key hN
    rw [h1] at hr
    have := Except.ok.inj hr
    subst this
    exact ⟨Rep.Over.unsetG hW hx ⟨h2, h3⟩, h4, fun I hI M hM hM' => (h5 ℝ I (setG_dual.2 hI) M hM hM').1⟩
  · rintro r ⟨hr, hz, hint⟩
    refine NetM.MeetsN.bind (projector_near_net hW hs hsol hr) fun Pw hPw => ?_
    refine NetM.MeetsN.bind (projector_near_net hW hs hsol hb) fun Pb hPb => ?_
    exact NetM.MeetsN.pure ⟨rfl, rfl, ⟨r, hr.wf, hz, hint, hPw⟩, hPb⟩

end

theorem NetReach.near (hsol : SolverNear W gens ε solve) {σ : NetSt ℝ} (h : NetReach W g gens solve σ) : NetSt.Near W g gens ε σ := by
  induction h with
  | start sg n h => exact ⟨fun e he => by simp [freshSt] at he, h⟩
  | call c σ _ ih =>
    refine ⟨?_, ih.sg⟩
    exact c.keeps (W := W.setG σ.sg) (gens := gens) (P := NearNull ε) (fun n f C Q h1 h2 => hsol n f C Q h1 h2) σ.solve ih.cache
  | scalar sg σ h _ ih => exact ⟨ih.cache, h⟩
  | draw n σ _ ih => exact ⟨ih.cache, ih.sg⟩

/-- If the element `I` acts orthogonally and moves approximately invariant vectors by at most `δ` times their length, then a layer
commutes with it up to `δ(|w||x| + |β|)`. -/
theorem LinearL.Near.commutes {a b : Rep} (hb : b.WF W) {L : LinearL ℝ} (h : L.Near W gens ε a b) {I : Interp ℝ} (hI : I.Dual W) (hU : I.Unit W)
    (ha : a.WF W) {δ : ℝ} (hδ : 0 ≤ δ) (hfix : ∀ r : Rep, r.WF W → ∀ v : List ℝ, v.length = r.size W → r.NearFixed W gens ε v →
      dst ((r.mat I).mulVec v) v ≤ δ * nrm v) {w : DMat ℝ} {β x : List ℝ} (hw : w.rows = b.size W) (hw' : w.cols = a.size W)
    (hβ : β.length = b.size W) (hx : x.length = a.size W) :
    ∃ y y', L.apply w β x = .ok y ∧ L.apply w β ((a.mat I).mulVec x) = .ok y' ∧ y.length = b.size W ∧ y'.length = b.size W ∧
      dst y' ((b.mat I).mulVec y) ≤ δ * (nrm w.flat * nrm x + nrm β) := by
  obtain ⟨r, hr, hz, hint, Q, hQ, hPw⟩ := h.w
  obtain ⟨Qb, hQb, hPb⟩ := h.b
  have sa := Rep.mat_sq hI.toSized ha
  have sb := Rep.mat_sq hI.toSized hb
  have hPw1 : L.Pw.sem.rows = r.size W := by rw [hPw]; exact hQ.rows
  have hPb1 : L.Pb.sem.rows = b.size W := by rw [hPb]; exact hQb.rows
  obtain ⟨M, hM⟩ : ∃ M, M = DMat.unflat w.rows w.cols (L.Pw.sem.mulVec w.flat) := ⟨_, rfl⟩
  have hM1 : M.rows = b.size W := by rw [hM]; exact hw
  have hM2 : M.cols = a.size W := by rw [hM]; exact hw'
  have hfl : M.flat = L.Pw.sem.mulVec w.flat := by
    rw [hM]; exact DMat.unflat_flat (by rw [DMat.length_mulVec, hPw1, hz, hw, hw'])
  obtain ⟨c, hc⟩ : ∃ c, c = L.Pb.sem.mulVec β := ⟨_, rfl⟩
  have hcl : c.length = b.size W := by rw [hc, length_mulVec, hPb1]
  have hwl : w.flat.length = r.size W := by rw [length_flat, hw, hw', hz]
  have hMl : M.flat.length = r.size W := by rw [length_flat, hM1, hM2, hz]
  have hMn : nrm M.flat ≤ nrm w.flat := by rw [hfl]; exact bessel_nrm hQ hPw hwl
  have hcn : nrm c ≤ nrm β := by rw [hc]; exact bessel_nrm hQb hPb hβ
  have hMf := hfix r hr M.flat hMl (by rw [hfl, hPw, mulVec_mul _ _ _ rfl]; exact hQ.near _ (by simp))
  have hcf := hfix b hb c hcl (by rw [hc, hPb, mulVec_mul _ _ _ rfl]; exact hQb.near _ (by simp))
  obtain ⟨X, hX, hXa, hact⟩ := hint I hI M hM1 hM2
  have ev : ∀ z : List ℝ, z.length = a.size W → L.apply w β z = .ok (zipWith (· + ·) (M.mulVec z) c) := by
    intro z hz
    unfold LinearL.apply
    rw [if_pos ⟨by rw [hw, h.nout], by rw [hw', h.nin], by rw [hβ, h.nout], by rw [hz, h.nin]⟩, hM, hc]
  refine ⟨_, _, ev x hx, ev _ (by rw [DMat.length_mulVec, sa.1]), by simp [hM1, hcl], by simp [hM1, hcl], ?_⟩
  obtain ⟨z, hzd⟩ : ∃ z, z = (a.mat I).mulVec x := ⟨_, rfl⟩
  have hzl : z.length = a.size W := by rw [hzd, length_mulVec, sa.1]
  have hzn : nrm z = nrm x := by
    rw [← toEu_nrm hzl, ← toEu_nrm hx, hzd]; exact unit_norm (Rep.mat_unit hU ha) hx
  obtain ⟨K, hK⟩ : ∃ K, K = ((b.mat I).mul M).mul X := ⟨_, rfl⟩
  have hK1 : K.rows = b.size W := by rw [hK]; exact sb.1
  have hK2 : K.cols = a.size W := by rw [hK]; exact hX.2
  have hBM : (b.mat I).mulVec (M.mulVec x) = K.mulVec z := by
    rw [hzd, hK, ← mulVec_mul (((b.mat I).mul M).mul X) (a.mat I) x (by rw [mul_cols, hX.2, sa.1]), mul_assoc' ((b.mat I).mul M) X (a.mat I) (by rw [mul_cols, hM2, hX.1]), hXa,
      DMat.mul_one' (n := a.size W) _ (by rw [mul_cols, hM2]), mulVec_mul _ _ _ (by rw [sb.2, hM1])]
  rw [← hzd, DMat.mulVec_add _ (by simp [hM1, hcl]), hBM, ← toEu_dst (n := b.size W) (by simp [hM1, hcl]), toEu_add (by simp [hM1]) hcl,
    toEu_add (by simp [hK1]) (by simp [sb.1]), add_sub_add_comm]
  refine (norm_add_le _ _).trans ?_
  have e1 : ‖toEu (b.size W) (M.mulVec z) - toEu (b.size W) (K.mulVec z)‖ ≤ δ * (nrm w.flat * nrm x) := by
    rw [toEu_dst (by simp [hM1])]
    rw [hact, ← hK, ← toEu_dst (by rw [length_flat, hK1, hK2]), norm_sub_rev, toEu_dst (by rw [length_flat, hM1, hM2])] at hMf
    have h1 : dst (M.mulVec z) (K.mulVec z) ≤ dst M.flat K.flat * nrm z := by
      unfold dst nrm
      rw [← Real.sqrt_mul' _ (nrm2_nonneg z)]
      exact Real.sqrt_le_sqrt (mulVec_dist2 (by rw [hM1, hK1]) (by rw [hM2, hK2]) (by rw [hM2, hzl]))
    rw [hzn] at h1
    refine h1.trans ?_
    rw [← mul_assoc]
    exact mul_le_mul_of_nonneg_right (hMf.trans (mul_le_mul_of_nonneg_left hMn hδ)) (Real.sqrt_nonneg _)
  have e2 : ‖toEu (b.size W) c - toEu (b.size W) ((b.mat I).mulVec c)‖ ≤ δ * nrm β := by
    rw [norm_sub_rev, toEu_dst (by simp [sb.1])]
    exact hcf.trans (mul_le_mul_of_nonneg_left hcn hδ)
  linarith

end

end Verif
