import Verif.Lemmas.FrameNet
import Verif.Lemmas.OrthoDim
import Verif.Props.Determinant
import Verif.Props.Emlp

/-! # C131: neither the coordinates nor the choice of generators matters -/
namespace Verif
open List

section
variable {W : World} {g : Gid} {N : ℕ} {T : ∀ k, Matrix (Fin (W.asize k g)) (Fin (W.asize k g)) ℝ}
  {custom custom' : ∀ k g, AtomRep ℝ (W.d g) (W.usize k g)} {lie disc lie' disc' : ∀ g, List (Matrix (Fin (W.d g)) (Fin (W.d g)) ℝ)}
  {P : Matrix (Fin (W.d g)) (Fin (W.d g)) ℝ} {solve solve' : ℕ → LinOp ℝ → Py (DMat ℝ)}

theorem generated_conj {n : Type} [Fintype n] [DecidableEq n] {lie disc : List (Matrix n n ℝ)} {P : Matrix n n ℝ} (hP : IsUnit P.det) {h : Matrix n n ℝ}
    (hh : Generated lie disc h) : Generated (lie.map fun A => P * A * P⁻¹) (disc.map fun A => P * A * P⁻¹) (P * h * P⁻¹) := by
  have e1 := Matrix.mul_nonsing_inv P hP
  have e2 := Matrix.nonsing_inv_mul P hP
  induction hh with
  | one => rw [Matrix.mul_one, e1]; exact .one
  | exp hA =>
    rw [← Matrix.exp_conj P _ ((Matrix.isUnit_iff_isUnit_det P).2 hP)]
    refine .exp ?_
    induction hA using Submodule.span_induction with
    | mem A hA => exact Submodule.subset_span (mem_map.2 ⟨A, hA, rfl⟩)
    | zero => simp
    | add A B _ _ ha hb => rw [Matrix.mul_add, Matrix.add_mul]; exact Submodule.add_mem _ ha hb
    | smul c A _ ha => rw [Matrix.mul_smul, Matrix.smul_mul]; exact Submodule.smul_mem _ _ ha
  | gen hd => exact .gen (mem_map.2 ⟨_, hd, rfl⟩)
  | @inv h hd =>
    have : P * h⁻¹ * P⁻¹ = (P * h * P⁻¹)⁻¹ := by rw [Matrix.mul_inv_rev, Matrix.mul_inv_rev, Matrix.nonsing_inv_nonsing_inv _ hP, Matrix.mul_assoc]
    rw [this]
    exact .inv (mem_map.2 ⟨_, hd, rfl⟩)
  | @mul a b _ _ iha ihb =>
    have : P * (a * b) * P⁻¹ = P * a * P⁻¹ * (P * b * P⁻¹) := by
      rw [show P * a * P⁻¹ * (P * b * P⁻¹) = P * a * (P⁻¹ * P) * b * P⁻¹ by simp only [Matrix.mul_assoc], e2, Matrix.mul_one, Matrix.mul_assoc P a b]
    rw [this]
    exact .mul iha ihb

/-- **C131.** Changing the coordinates of the generators changes the coordinates of the group: with the generators `P A P⁻¹` in place of `A`, the group consists
of the `P h P⁻¹`. -/
theorem C131_generators {n : Type} [Fintype n] [DecidableEq n] (lie disc : List (Matrix n n ℝ)) {P : Matrix n n ℝ} (hP : IsUnit P.det) (h : Matrix n n ℝ) :
    Generated lie disc h ↔ Generated (lie.map fun A => P * A * P⁻¹) (disc.map fun A => P * A * P⁻¹) (P * h * P⁻¹) := by
  refine ⟨generated_conj hP, fun hh => ?_⟩
  have hP' : IsUnit (P⁻¹).det := (Matrix.isUnit_iff_isUnit_det _).1 ((Matrix.isUnit_nonsing_inv_iff).2 ((Matrix.isUnit_iff_isUnit_det P).2 hP))
  have h1 := generated_conj hP' hh
  have back : ∀ A : Matrix n n ℝ, P⁻¹ * (P * A * P⁻¹) * P⁻¹⁻¹ = A := fun A => by
    rw [Matrix.nonsing_inv_nonsing_inv _ hP, show P⁻¹ * (P * A * P⁻¹) * P = (P⁻¹ * P) * A * (P⁻¹ * P) by simp only [Matrix.mul_assoc], Matrix.nonsing_inv_mul P hP,
      Matrix.one_mul, Matrix.mul_one]
  have hid : ∀ l : List (Matrix n n ℝ), ((l.map fun A => P * A * P⁻¹).map fun A => P⁻¹ * A * P⁻¹⁻¹) = l := fun l => by
    rw [map_map]
    conv_rhs => rw [← map_id l]
    exact map_congr_left fun A _ => back A
  rwa [hid, hid, back] at h1

/-- **C131.** In other coordinates (of any kind that the flags of the group allow), `equivariant_basis()` of every representation returns as many elements, and
they span the same vectors in the new coordinates. -/
theorem C131_basis (hW : W.SingleOK g N) (e : Expr) (he : e.OK W g) (hN : e.bound W g ≤ N) (ok : GroupsOK W custom lie disc) (ok' : GroupsOK W custom' lie' disc')
    (fr : FrameOK W g custom custom' lie disc lie' disc' P T)
    (hsol : SolverOK W (gensOf W (stdAtoms W custom) lie disc) solve) (htot : SolverRuns W (gensOf W (stdAtoms W custom) lie disc) solve)
    (hsol' : SolverOK W (gensOf W (stdAtoms W custom') lie' disc') solve') (htot' : SolverRuns W (gensOf W (stdAtoms W custom') lie' disc') solve')
    (calls calls' : List SolveCall) :
    ∃ r L L', e.eval W g = .ok r ∧
      (r.equivariantBasis W (gensOf W (stdAtoms W custom) lie disc) solve (session W (gensOf W (stdAtoms W custom) lie disc) solve calls freshSt)).1 = .ok L ∧
      (r.equivariantBasis W (gensOf W (stdAtoms W custom') lie' disc') solve' (session W (gensOf W (stdAtoms W custom') lie' disc') solve' calls' freshSt)).1 = .ok L' ∧
      L.sem.cols = L'.sem.cols ∧ ∀ v : List ℝ, v.length = e.dim W g →
        ((∃ a : List ℝ, a.length = L.sem.cols ∧ L.sem.mulVec a = v) ↔
          ∃ a : List ℝ, a.length = L'.sem.cols ∧ L'.sem.mulVec a = (e.den g (Interp.frame W g T)).1.mulVec v) := by
  obtain ⟨r, L, hr, hL, hQ⟩ := basis_of_group hW e he hN ok hsol htot calls
  obtain ⟨r1, L', hr', hL', hQ'⟩ := basis_of_group hW e he hN ok' hsol' htot' calls'
  rw [hr] at hr'
  cases hr'
  obtain ⟨r', hr', hwf, hk, hsz, hm⟩ := e.eval_good hW he hN
  rw [hr] at hr'
  cases hr'
  have hI : (Interp.frame W g T).Dual W := frame_isDual fr.unit fr.orth
  have hI' : (Interp.frame W g fun k => (T k)⁻¹).Sized W := frame_sized
  have em : (e.den g (Interp.frame W g T)).1 = r.mat (Interp.frame W g T) := (hm ℝ _ hI).symm
  have sq := Rep.mat_sq hI.toSized hwf
  have sq' := Rep.mat_sq hI' hwf
  have bk := frame_back fr.unit hwf
  have hden : ∀ (c : ∀ k g, AtomRep ℝ (W.d g) (W.usize k g)) (l d : ∀ g, List (Matrix (Fin (W.d g)) (Fin (W.d g)) ℝ)), GroupsOK W c l d →
      ∀ h, Generated (l g) (d g) h → (e.den g (Interp.elem W c g h)).1 = r.mat (Interp.elem W c g h) := fun c l d ok h hh => (hm ℝ _ (elem_dual ok hh)).symm
  have key : ∀ v : List ℝ, v.length = e.dim W g →
      ((v.length = e.dim W g ∧ ∀ h, Generated (lie g) (disc g) h → (e.den g (Interp.elem W custom g h)).1.mulVec v = v) ↔
        ((e.den g (Interp.frame W g T)).1.mulVec v).length = e.dim W g ∧
          ∀ h, Generated (lie' g) (disc' g) h → (e.den g (Interp.elem W custom' g h)).1.mulVec ((e.den g (Interp.frame W g T)).1.mulVec v) =
            (e.den g (Interp.frame W g T)).1.mulVec v) := by
    intro v hv
    have h1 := fr.fixes hwf (v := v) (by rw [hv, hsz])
    rw [em]
    constructor
    · rintro ⟨-, hf⟩
      refine ⟨by rw [DMat.length_mulVec, sq.1, hsz], fun h hh => ?_⟩
      rw [hden _ _ _ ok' h hh]
      exact h1.1 (fun h hh => by rw [← hden _ _ _ ok h hh]; exact hf h hh) h hh
    · rintro ⟨-, hf⟩
      refine ⟨hv, fun h hh => ?_⟩
      rw [hden _ _ _ ok h hh]
      exact h1.2 (fun h hh => by rw [← hden _ _ _ ok' h hh]; exact hf h hh) h hh
  have span : ∀ v : List ℝ, v.length = e.dim W g → ((∃ a : List ℝ, a.length = L.sem.cols ∧ L.sem.mulVec a = v) ↔
      ∃ a : List ℝ, a.length = L'.sem.cols ∧ L'.sem.mulVec a = (e.den g (Interp.frame W g T)).1.mulVec v) := fun v hv => by
    rw [← hQ.span v hv, key v hv, ← hQ'.span _ (by rw [em, DMat.length_mulVec, sq.1, hsz])]
  refine ⟨r, L, L', hr, hL, hL', ?_, span⟩
  have hf : ∀ v : List ℝ, v.length = e.dim W g → (r.mat (Interp.frame W g fun k => (T k)⁻¹)).mulVec ((r.mat (Interp.frame W g T)).mulVec v) = v := fun v hv => by
    rw [← DMat.mulVec_mul _ (r.mat (Interp.frame W g T)) _ (by rw [sq'.2, sq.1]), bk, DMat.mulVec_one _ (by rw [hv, hsz])]
  have fb : ∀ v : List ℝ, v.length = e.dim W g → (r.mat (Interp.frame W g T)).mulVec ((r.mat (Interp.frame W g fun k => (T k)⁻¹)).mulVec v) = v := fun v hv => by
    rw [← DMat.mulVec_mul (r.mat (Interp.frame W g T)) _ _ (by rw [sq'.1, sq.2]), DMat.mul_eq_one_comm sq' sq bk, DMat.mulVec_one _ (by rw [hv, hsz])]
  -- a basis of the second space, moved back, is a basis of the first
  obtain ⟨B, hB⟩ : ∃ B, B = (r.mat (Interp.frame W g fun k => (T k)⁻¹)).mul L'.sem := ⟨_, rfl⟩
  have hB1 : B.rows = e.dim W g := by rw [hB, DMat.mul_rows, sq'.1, hsz]
  have hB2 : B.cols = L'.sem.cols := by rw [hB, DMat.mul_cols]
  have hBv : ∀ a : List ℝ, B.mulVec a = (r.mat (Interp.frame W g fun k => (T k)⁻¹)).mulVec (L'.sem.mulVec a) := fun a => by
    rw [hB, DMat.mulVec_mul _ _ _ (by rw [sq'.2, hQ'.rows, hsz])]
  rw [← hB2]
  obtain ⟨n, hn⟩ : ∃ n, n = e.dim W g := ⟨_, rfl⟩
  rw [← hn] at hB1 hQ hQ'
  subst hB1
  refine hQ.cols_eq B.lin' ?_ fun v => ?_
  · intro x y hxy
    have h1 : ∀ a : Fin B.cols → ℝ, L'.sem.conjTranspose.mulVec ((r.mat (Interp.frame W g T)).mulVec (B.mulVec (List.ofFn a))) = List.ofFn a := fun a => by
      rw [hBv, fb _ (by rw [DMat.length_mulVec, hQ'.rows, hn]), ← DMat.mulVec_mul _ _ _ rfl, hQ'.orth, DMat.mulVec_one _ (by simp [hB2])]
    have h2 := h1 x
    rw [DMat.lin'_ofFn, hxy, ← DMat.lin'_ofFn, h1 y] at h2
    exact (List.ofFn_injective h2).symm
  · have hl : (List.ofFn v).length = e.dim W g := by rw [List.length_ofFn, hn]
    have h0 := span _ hl
    rw [← hQ.span _ (by simp)] at h0
    rw [h0]
    constructor
    · rintro ⟨a, ha, hv⟩
      refine ⟨fun j => a.getD j 0, List.ofFn_injective ?_⟩
      have ea : (List.ofFn fun j : Fin B.cols => a.getD j 0) = a :=
        List.ext_getElem (by simp [ha, hB2]) fun i h1 h2 => by simp [h2]
      rw [← DMat.lin'_ofFn, ea, hBv, hv, em, hf _ hl]
    · rintro ⟨x, rfl⟩
      refine ⟨List.ofFn x, by simp [hB2], ?_⟩
      rw [← DMat.lin'_ofFn, hBv, em, fb _ (by rw [DMat.length_mulVec, hQ'.rows, hn])]

variable {rng : Rng} {σ τ σ' τ' : NetSt ℝ} {ein eout : Expr} {rin rout : Rep} {fuel b L : ℕ} {ch : Ch} {ws : List ℕ} {E E' : Emlp ℝ}

/-- What the two constructors have in common. -/
theorem Emlp.init_pair (hW : W.SingleOK g N) (hd : 2 ≤ W.d g) (hdN : W.d g ≤ N)
    (hsol : SolverOK W (gensOf W (stdAtoms W custom) lie disc) solve) (hsol' : SolverOK W (gensOf W (stdAtoms W custom') lie' disc') solve')
    (hσ : NetReach W g (gensOf W (stdAtoms W custom) lie disc) solve σ) (hτ : NetReach W g (gensOf W (stdAtoms W custom') lie' disc') solve' τ)
    (hsg : σ.sg = τ.sg) (hdr : σ.draws = τ.draws)
    (hrng : RngOK rng) (hin : RepArg W g N ein rin) (hout : RepArg W g N eout rout) (hch : ch.Widths W g N b L ws)
    (hbi : ein.dim W g ≤ b) (hbo : eout.dim W g ≤ b) (hbf : b < fuel) (hN : (2 * b) * (2 * b) ≤ N)
    (hE : Emlp.init W (gensOf W (stdAtoms W custom) lie disc) solve rng fuel rin rout g ch L σ = .ok (E, σ'))
    (hE' : Emlp.init W (gensOf W (stdAtoms W custom') lie' disc') solve' rng fuel rin rout g ch L τ = .ok (E', τ')) :
    ∃ a o mids, ArgOf W g N ein a ∧ ArgOf W g N eout o ∧ MidsOf W g N b ch ws mids ∧
      Emlp.Paired W g N (gensOf W (stdAtoms W custom) lie disc) (gensOf W (stdAtoms W custom') lie' disc') a mids o E E' := by
  have hbN : b ≤ N := by nlinarith [Nat.zero_le b]
  have key : NetM.Pair W g (gensOf W (stdAtoms W custom) lie disc) (gensOf W (stdAtoms W custom') lie' disc')
      (Emlp.init W (gensOf W (stdAtoms W custom) lie disc) solve rng fuel rin rout g ch L)
      (Emlp.init W (gensOf W (stdAtoms W custom') lie' disc') solve' rng fuel rin rout g ch L) fun E E' =>
        ∃ a o mids, ArgOf W g N ein a ∧ ArgOf W g N eout o ∧ MidsOf W g N b ch ws mids ∧
          Emlp.Paired W g N (gensOf W (stdAtoms W custom) lie disc) (gensOf W (stdAtoms W custom') lie' disc') a mids o E E' := by
    rw [Emlp.init_eq, Emlp.init_eq]
    refine NetM.Pair.bind (NetM.Pair.of (hin.meets hW) (hin.meets hW) (NetM.Same.free (.rep _))) ?_
    rintro a _ ⟨rfl, ha, -⟩
    refine NetM.Pair.bind (NetM.Pair.of (hout.meets hW) (hout.meets hW) (NetM.Same.free (.rep _))) ?_
    rintro o _ ⟨rfl, ho, -⟩
    refine NetM.Pair.bind (NetM.Pair.of (parseCh_meets hW hd hdN hrng hbN hbf hch) (parseCh_meets hW hd hdN hrng hbN hbf hch)
      (NetM.Same.free (parseCh_free _ _ _))) ?_
    rintro m _ ⟨rfl, hm, -⟩
    intro σ τ h1 h2 h3 h4 E σ' E' τ' e1 e2
    obtain ⟨i, j⟩ := Emlp.build_pair hW gensOf_sized gensOf_sized hsol hsol'
      (init_hov hW hd hdN hrng hbN hbf hch (gensOf_sized (custom := custom) (lie := lie) (disc := disc)) hsol hin hout hbi hbo hN ha ho hm) hN hrng σ τ h1 h2 h3 h4 E σ' E' τ' e1 e2
    exact ⟨i, a, o, m, ha, ho, hm, j⟩
  exact (key σ τ (hσ.ok hsol) (hτ.ok hsol') hsg hdr E σ' E' τ' hE hE').2

/-- Parameters in other coordinates have the shapes of the parameters of the other network. -/
theorem moveParams_shaped {J : Interp ℝ} (hJ : J.Dual W) {gens gens' : Gid → GenSet ℝ} (mids : List Rep) :
    ∀ (a : Rep) (Bs Bs' : List (Block ℝ)) (ps : List (BlockParams ℝ)), a.Over W g N → (∀ r ∈ mids, r.Over W g N) →
      All3 (fun p B B' => Block.Paired W g N gens gens' p.1 p.2 B B') ((a :: mids).zip mids) Bs Bs' → Forall₂ BlockParams.Shaped Bs ps →
      Forall₂ BlockParams.Shaped Bs' (moveParams W J a mids ps) := by
  induction mids with
  | nil =>
    intro a Bs Bs' ps _ _ h hp
    cases h
    cases hp
    exact .nil
  | cons r t ih =>
    intro a Bs Bs' ps ha hr h hp
    rw [zip_cons_cons] at h
    cases h with
    | cons hb ht =>
      cases hp with
      | cons hp hps =>
        refine .cons ?_ (ih r _ _ _ (hr r (by simp)) (fun r' h' => hr r' (by simp [h'])) ht hps)
        obtain ⟨g1, h1, hl, hl'⟩ := hb.lin
        have sa := Rep.mat_sq hJ.toSized ha.wf
        have sr := Rep.mat_sq hJ.toSized (hr r (by simp)).wf
        have ev : (DMat.bdiag2 (r.mat J) (DMat.one (r.gates W))).rows = r.size W + r.gates W := by simp [DMat.bdiag2, DMat.of, DMat.one, sr.1]
        refine ⟨?_, ?_, ?_, ?_⟩
        · rw [BlockParams.move, DMat.mul_rows, DMat.mul_rows, hl'.nout, h1.size, ev]
        · rw [BlockParams.move, DMat.mul_cols, hl'.nin, ← sa.1]; rfl
        · rw [BlockParams.move, DMat.length_mulVec, hl'.nout, h1.size, ev]
        · rw [← hb.bil]; exact hp.bw

/-- In unchanged coordinates the parameters are unchanged. -/
theorem moveParams_id {J : Interp ℝ} (hJ : J.IsOne W) {gens gens' : Gid → GenSet ℝ} (mids : List Rep) :
    ∀ (a : Rep) (Bs Bs' : List (Block ℝ)) (ps : List (BlockParams ℝ)), a.Over W g N → (∀ r ∈ mids, r.Over W g N) →
      All3 (fun p B B' => Block.Paired W g N gens gens' p.1 p.2 B B') ((a :: mids).zip mids) Bs Bs' → Forall₂ BlockParams.Shaped Bs ps →
      moveParams W J a mids ps = ps := by
  induction mids with
  | nil =>
    intro a Bs Bs' ps _ _ h hp
    cases h
    cases hp
    rfl
  | cons r t ih =>
    intro a Bs Bs' ps ha hr h hp
    rw [zip_cons_cons] at h
    cases h with
    | cons hb ht =>
      cases hp with
      | @cons B p _ _ hp hps =>
        rw [moveParams, ih r _ _ _ (hr r (by simp)) (fun r' h' => hr r' (by simp [h'])) ht hps]
        obtain ⟨g1, h1, hl, hl'⟩ := hb.lin
        congr 1
        rw [BlockParams.move, Rep.mat_one hJ ha.wf, Rep.mat_one hJ (hr r (by simp)).wf, DMat.bdiag2_one, DMat.transpose_one,
          DMat.one_mul' (n := r.size W + r.gates W) _ (by rw [hp.rows, hl.nout, h1.size]), DMat.mul_one' (n := a.size W) _ (by rw [hp.cols, hl.nin]),
          DMat.mulVec_one _ (by rw [hp.b, hl.nout, h1.size])]

/-- **C131.** A network for the group in other orthonormal coordinates, built from the same arguments with the same random draws, is the same network in those
coordinates: with its parameters in the new coordinates, it maps the new coordinates of the input to the new coordinates of the output. -/
theorem C131_network (hW : W.SingleOK g N) (hd : 2 ≤ W.d g) (hdN : W.d g ≤ N) (ok : GroupsOK W custom lie disc) (ok' : GroupsOK W custom' lie' disc')
    (fr : FrameOK W g custom custom' lie disc lie' disc' P T) (hT : ∀ k, (T k).transpose * T k = 1)
    (hsol : SolverOK W (gensOf W (stdAtoms W custom) lie disc) solve) (hsol' : SolverOK W (gensOf W (stdAtoms W custom') lie' disc') solve')
    (hσ : NetReach W g (gensOf W (stdAtoms W custom) lie disc) solve σ) (hτ : NetReach W g (gensOf W (stdAtoms W custom') lie' disc') solve' τ)
    (hsg : σ.sg = τ.sg) (hdr : σ.draws = τ.draws)
    (hrng : RngOK rng) (hin : RepArg W g N ein rin) (hout : RepArg W g N eout rout) (hch : ch.Widths W g N b L ws)
    (hbi : ein.dim W g ≤ b) (hbo : eout.dim W g ≤ b) (hbf : b < fuel) (hN : (2 * b) * (2 * b) ≤ N)
    (hE : Emlp.init W (gensOf W (stdAtoms W custom) lie disc) solve rng fuel rin rout g ch L σ = .ok (E, σ'))
    (hE' : Emlp.init W (gensOf W (stdAtoms W custom') lie' disc') solve' rng fuel rin rout g ch L τ = .ok (E', τ')) :
    E.repIn = E'.repIn ∧ E.hidden = E'.hidden ∧ E.repOut = E'.repOut ∧
    ∀ ps w β, E.Shaped ps w β →
      E'.Shaped (moveParams W (Interp.frame W g T) E.repIn E.hidden ps)
          (((E.repOut.mat (Interp.frame W g T)).mul w).mul ((E.hidden.getLastD E.repIn).mat (Interp.frame W g T)).transpose)
          ((E.repOut.mat (Interp.frame W g T)).mulVec β) ∧
      ∀ (c : ℝ) (act : ℝ → ℝ) (x y : List ℝ), x.length = ein.dim W g → E.apply W c act ps w β x = .ok y →
        E'.apply W c act (moveParams W (Interp.frame W g T) E.repIn E.hidden ps)
          (((E.repOut.mat (Interp.frame W g T)).mul w).mul ((E.hidden.getLastD E.repIn).mat (Interp.frame W g T)).transpose)
          ((E.repOut.mat (Interp.frame W g T)).mulVec β) ((ein.den g (Interp.frame W g T)).1.mulVec x) =
        .ok ((eout.den g (Interp.frame W g T)).1.mulVec y) := by
  have hbN : b ≤ N := by nlinarith [Nat.zero_le b]
  obtain ⟨a, o, mids, ha, ho, hm, pr⟩ := Emlp.init_pair hW hd hdN hsol hsol' hσ hτ hsg hdr hrng hin hout hch hbi hbo hbf hN hE hE'
  obtain ⟨a', o', mids', -, -, -, good⟩ :=
    (Emlp.init_meets hW hd hdN hrng hbN hbf hch gensOf_sized hsol hin hout hbi hbo hN σ (hσ.ok hsol) E σ' hE).2
  obtain ⟨f1, f2, f3⟩ := pr.fields
  obtain ⟨f1', f2', f3'⟩ := pr.fields'
  obtain ⟨k1, k2, k3⟩ := good.fields
  rw [f1] at k1; rw [f2] at k2; rw [f3] at k3
  subst k1 k2 k3
  refine ⟨by rw [f1, f1'], by rw [f3, f3'], by rw [f2, f2'], fun ps w β hp => ?_⟩
  have hI : (Interp.frame W g T).Dual W := frame_isDual fr.unit fr.orth
  rw [← ha.2.2 ℝ _ hI, ← ho.2.2 ℝ _ hI, f1, f2, f3]
  refine ⟨⟨moveParams_shaped hI mids a _ _ ps ha.1 (fun r hr => (hm.2.1 r hr).1) pr.blocks hp.blocks, ?_, ?_, ?_⟩, ?_⟩
  · rw [DMat.mul_rows, DMat.mul_rows, (Rep.mat_sq hI.toSized ho.1.wf).1, pr.last'.nout]
  · have hl : (mids.getLastD a).Over W g N := by
      rcases eq_or_ne mids [] with rfl | hne
      · exact ha.1
      · rw [getLastD_eq_getLast?, getLast?_eq_some_getLast hne]
        exact (hm.2.1 _ (getLast_mem hne)).1
    rw [DMat.mul_cols, pr.last'.nin, ← (Rep.mat_sq hI.toSized hl.wf).1]; rfl
  · rw [DMat.length_mulVec, (Rep.mat_sq hI.toSized ho.1.wf).1, pr.last'.nout]
  intro c act x y hx hy
  by_cases hc : ∀ r ∈ mids, r.CanonicalSum W
  · obtain ⟨z, h1, h2, h3⟩ := pr.carries fr ok ok' hT hW ha.1 ho.1 (fun r hr => ⟨(hm.2.1 r hr).1, hc r hr⟩) c act hp x (by rw [hx, ha.2.1])
    rw [h1] at hy
    rw [← Except.ok.inj hy, h3]
  · push Not at hc
    obtain ⟨e, he⟩ := good.raises (fun r hr => (hm.2.1 r hr).1) hc c act hp.blocks.length_eq.symm x (w := w) (β := β)
    rw [he] at hy
    cases hy

theorem frame_one : (Interp.frame W g fun _ => 1).IsOne W := by
  constructor
  · intro k g'
    by_cases e : g' = g
    · subst e; rw [frame_vec_same, DMat.ofMatrix_one]
    · rw [frame_vec_ne e]
  · intro k g'
    by_cases e : g' = g
    · subst e; rw [frame_dual_same, inv_one, Matrix.transpose_one, DMat.ofMatrix_one]
    · rw [frame_dual_ne e]

/-- One direction of the next theorem. -/
theorem same_group_half (hW : W.SingleOK g N) (hd : 2 ≤ W.d g) (hdN : W.d g ≤ N) (ok : GroupsOK W custom lie disc) (ok' : GroupsOK W custom' lie' disc')
    (hgrp : ∀ h, Generated (lie g) (disc g) h ↔ Generated (lie' g) (disc' g) h)
    (huser : ∀ k h, Generated (lie g) (disc g) h → (custom' (k + 1) g).rho h = (custom (k + 1) g).rho h)
    (hsol : SolverOK W (gensOf W (stdAtoms W custom) lie disc) solve) (hsol' : SolverOK W (gensOf W (stdAtoms W custom') lie' disc') solve')
    (hσ : NetReach W g (gensOf W (stdAtoms W custom) lie disc) solve σ) (hτ : NetReach W g (gensOf W (stdAtoms W custom') lie' disc') solve' τ)
    (hsg : σ.sg = τ.sg) (hdr : σ.draws = τ.draws)
    (hrng : RngOK rng) (hin : RepArg W g N ein rin) (hout : RepArg W g N eout rout) (hch : ch.Widths W g N b L ws)
    (hbi : ein.dim W g ≤ b) (hbo : eout.dim W g ≤ b) (hbf : b < fuel) (hN : (2 * b) * (2 * b) ≤ N)
    (hE : Emlp.init W (gensOf W (stdAtoms W custom) lie disc) solve rng fuel rin rout g ch L σ = .ok (E, σ'))
    (hE' : Emlp.init W (gensOf W (stdAtoms W custom') lie' disc') solve' rng fuel rin rout g ch L τ = .ok (E', τ')) :
    E.repIn = E'.repIn ∧ E.hidden = E'.hidden ∧ E.repOut = E'.repOut ∧
    ∀ ps w β, E.Shaped ps w β → E'.Shaped ps w β ∧ ∀ (c : ℝ) (act : ℝ → ℝ) (x y : List ℝ), x.length = ein.dim W g →
      E.apply W c act ps w β x = .ok y → E'.apply W c act ps w β x = .ok y := by
  have fr : FrameOK W g custom custom' lie disc lie' disc' 1 (fun _ => 1) :=
    { zero := rfl
      unit := fun k => by rw [Matrix.det_one]; exact isUnit_one
      conj := fun h => by rw [inv_one, Matrix.mul_one, Matrix.one_mul]; exact hgrp h
      user := fun k h hh => by
        rw [inv_one, inv_one, Matrix.mul_one, Matrix.mul_one, Matrix.one_mul, Matrix.one_mul]
        exact huser k h hh
      orth := fun _ k => by rw [Matrix.transpose_one, Matrix.mul_one]
      perm := fun _ => ⟨1, by simp⟩ }
  have hJ : (Interp.frame W g fun _ => 1).IsOne W := frame_one
  have hI : (Interp.frame W g fun _ => 1).Dual W := frame_isDual fr.unit fr.orth
  obtain ⟨a, o, mids, ha, ho, hm, pr⟩ := Emlp.init_pair hW hd hdN hsol hsol' hσ hτ hsg hdr hrng hin hout hch hbi hbo hbf hN hE hE'
  obtain ⟨e1, e2, e3, h⟩ := C131_network hW hd hdN ok ok' fr (fun k => by rw [Matrix.transpose_one, Matrix.mul_one]) hsol hsol' hσ hτ hsg hdr hrng hin hout hch
    hbi hbo hbf hN hE hE'
  refine ⟨e1, e2, e3, fun ps w β hp => ?_⟩
  have hl : (mids.getLastD a).Over W g N := by
    rcases eq_or_ne mids [] with rfl | hne
    · exact ha.1
    · rw [getLastD_eq_getLast?, getLast?_eq_some_getLast hne]
      exact (hm.2.1 _ (getLast_mem hne)).1
  obtain ⟨f1, f2, f3⟩ := pr.fields
  obtain ⟨hs, hv⟩ := h ps w β hp
  rw [f1, f2, f3, moveParams_id hJ mids a _ _ ps ha.1 (fun r hr => (hm.2.1 r hr).1) pr.blocks hp.blocks, Rep.mat_one hJ ho.1.wf, Rep.mat_one hJ hl.wf,
    DMat.transpose_one, DMat.one_mul' (n := o.size W) _ (by rw [hp.rows, pr.last.nout]), DMat.mul_one' (n := (mids.getLastD a).size W) _ (by rw [hp.cols, pr.last.nin]),
    DMat.mulVec_one _ (by rw [hp.b, pr.last.nout])] at hs hv
  refine ⟨hs, fun c act x y hx hy => ?_⟩
  have h1 := hv c act x y hx hy
  have hy' : y.length = o.size W := by
    rw [ho.2.1]
    exact (C40_widths hW hd hdN ok hsol hσ hrng hin hout hch hbi hbo hbf hN hE).2.2.2.2.2.2 ps w β hp c act x y hx hy
  rwa [← ha.2.2 ℝ _ hI, ← ho.2.2 ℝ _ hI, Rep.mat_one hJ ha.1.wf, Rep.mat_one hJ ho.1.wf, DMat.mulVec_one _ (by rw [hx, ha.2.1]), DMat.mulVec_one _ hy'] at h1

/-- **C131.** Only the group matters, not the generators it is given by: with other generators of the same group (and user-defined representations that agree on
it), the constructor returns a network with the same parameters that returns the same output for each input. -/
theorem C131_same_group (hW : W.SingleOK g N) (hd : 2 ≤ W.d g) (hdN : W.d g ≤ N) (ok : GroupsOK W custom lie disc) (ok' : GroupsOK W custom' lie' disc')
    (hgrp : ∀ h, Generated (lie g) (disc g) h ↔ Generated (lie' g) (disc' g) h)
    (huser : ∀ k h, Generated (lie g) (disc g) h → (custom' (k + 1) g).rho h = (custom (k + 1) g).rho h)
    (hsol : SolverOK W (gensOf W (stdAtoms W custom) lie disc) solve) (hsol' : SolverOK W (gensOf W (stdAtoms W custom') lie' disc') solve')
    (hσ : NetReach W g (gensOf W (stdAtoms W custom) lie disc) solve σ) (hτ : NetReach W g (gensOf W (stdAtoms W custom') lie' disc') solve' τ)
    (hsg : σ.sg = τ.sg) (hdr : σ.draws = τ.draws)
    (hrng : RngOK rng) (hin : RepArg W g N ein rin) (hout : RepArg W g N eout rout) (hch : ch.Widths W g N b L ws)
    (hbi : ein.dim W g ≤ b) (hbo : eout.dim W g ≤ b) (hbf : b < fuel) (hN : (2 * b) * (2 * b) ≤ N)
    (hE : Emlp.init W (gensOf W (stdAtoms W custom) lie disc) solve rng fuel rin rout g ch L σ = .ok (E, σ'))
    (hE' : Emlp.init W (gensOf W (stdAtoms W custom') lie' disc') solve' rng fuel rin rout g ch L τ = .ok (E', τ')) :
    E.repIn = E'.repIn ∧ E.hidden = E'.hidden ∧ E.repOut = E'.repOut ∧
    ∀ ps w β, (E.Shaped ps w β ↔ E'.Shaped ps w β) ∧ (E.Shaped ps w β → ∀ (c : ℝ) (act : ℝ → ℝ) (x y : List ℝ), x.length = ein.dim W g →
      (E.apply W c act ps w β x = .ok y ↔ E'.apply W c act ps w β x = .ok y)) := by
  obtain ⟨e1, e2, e3, h⟩ := same_group_half hW hd hdN ok ok' hgrp huser hsol hsol' hσ hτ hsg hdr hrng hin hout hch hbi hbo hbf hN hE hE'
  obtain ⟨-, -, -, h'⟩ := same_group_half hW hd hdN ok' ok (fun h => (hgrp h).symm) (fun k h hh => (huser k h ((hgrp h).2 hh)).symm) hsol' hsol hτ hσ hsg.symm hdr.symm
    hrng hin hout hch hbi hbo hbf hN hE' hE
  refine ⟨e1, e2, e3, fun ps w β => ⟨⟨fun hp => (h ps w β hp).1, fun hp => (h' ps w β hp).1⟩, fun hp c act x y hx => ⟨(h ps w β hp).2 c act x y hx, ?_⟩⟩⟩
  exact (h' ps w β (h ps w β hp).1).2 c act x y hx

end

/-! ## The rotations of space about one axis and about another -/

/-- The cyclic renumbering of the coordinates. -/
noncomputable def turnM (n : ℕ) : Matrix (Fin n) (Fin n) ℝ := (finRotate n).permMatrix ℝ

theorem turn_orth (n : ℕ) : (turnM n).transpose * turnM n = 1 := by
  rw [turnM, Matrix.transpose_permMatrix, ← Matrix.permMatrix_mul]
  simp

theorem turn_unit (n : ℕ) : IsUnit (turnM n).det := (Matrix.isUnit_iff_isUnit_det _).1 (IsUnit.of_mul_eq_one_right _ (turn_orth n))

theorem turn_inv (n : ℕ) : (turnM n)⁻¹ = (turnM n).transpose := Matrix.inv_eq_left_inv (turn_orth n)

/-- The generators in the renumbered coordinates: rotations about the first axis where `rotLies` has rotations about the last one. -/
noncomputable def turnLies (g : Gid) : List (Matrix (Fin (exW.d g)) (Fin (exW.d g)) ℝ) := (rotLies g).map fun A => turnM _ * A * (turnM _)⁻¹

theorem turn_groups : GroupsOK exW (fun k g => trivialAtom _ _) turnLies fun _ => [] where
  unit g h hh := by simp at hh
  orth g hg := by
    refine ⟨fun A hA => ?_, by simp⟩
    obtain ⟨B, hB, rfl⟩ := mem_map.1 hA
    have := (rot_groups.orth g hg).1 B hB
    rw [turn_inv, Matrix.transpose_mul, Matrix.transpose_mul, Matrix.transpose_transpose, this, Matrix.neg_mul, Matrix.mul_neg, Matrix.mul_assoc]
  hom _ _ := trivialAtom_hom _ _
  user k g _ M _ := by simp [trivialAtom]
  perm g hg := by
    have : g = 2 := by simpa [exW] using hg
    subst this
    exact ⟨rfl, by simp⟩

/-- the coordinates of the two groups -/
noncomputable def turnFrame : ∀ k, Matrix (Fin (exW.asize k 0)) (Fin (exW.asize k 0)) ℝ
  | 0 => turnM _
  | _ + 1 => 1

theorem turnFrame_orth : ∀ k, (turnFrame k).transpose * turnFrame k = 1
  | 0 => turn_orth _
  | _ + 1 => by rw [turnFrame, Matrix.transpose_one, Matrix.mul_one]

theorem turn_frame : FrameOK exW 0 (fun k g => trivialAtom _ _) (fun k g => trivialAtom _ _) rotLies (fun _ => []) turnLies (fun _ => []) (turnM _) turnFrame where
  zero := rfl
  unit k := (Matrix.isUnit_iff_isUnit_det _).1 (IsUnit.of_mul_eq_one_right _ (turnFrame_orth k))
  conj h := C131_generators _ _ (turn_unit _) h
  user k h _ := by simp [stdAtoms, trivialAtom, turnFrame]; exact (Matrix.mul_one _).symm
  orth _ := turnFrame_orth
  perm h := by simp [exW] at h

example : ∃ (solve : ℕ → LinOp ℝ → Py (DMat ℝ)) (rng : Rng) (E E' : Emlp ℝ) (σ' τ' : NetSt ℝ),
    turnLies 0 ≠ rotLies 0 ∧
    SolverOK exW (gensOf exW (stdAtoms exW fun k g => trivialAtom _ _) rotLies fun _ => []) solve ∧
    SolverOK exW (gensOf exW (stdAtoms exW fun k g => trivialAtom _ _) turnLies fun _ => []) solve ∧
    RngOK rng ∧
    RepArg exW 0 576 (.rep 0) Rep.V ∧ RepArg exW 0 576 .scalar (.key .scalar) ∧ Ch.Widths exW 0 576 12 0 (.list [.int 12, .int 7]) [12, 7] ∧
    Emlp.init exW (gensOf exW (stdAtoms exW fun k g => trivialAtom _ _) rotLies fun _ => []) solve rng 13 Rep.V (.key .scalar) 0
      (.list [.int 12, .int 7]) 0 ⟨freshSt, none, 0⟩ = .ok (E, σ') ∧
    Emlp.init exW (gensOf exW (stdAtoms exW fun k g => trivialAtom _ _) turnLies fun _ => []) solve rng 13 Rep.V (.key .scalar) 0
      (.list [.int 12, .int 7]) 0 ⟨freshSt, none, 0⟩ = .ok (E', τ') := by
  obtain ⟨s, h1, h2⟩ := exists_solver ℝ
  obtain ⟨rng, hr⟩ := exists_rng
  have ha : RepArg exW 0 576 (.rep 0) Rep.V := ⟨⟨by decide, Or.inl rfl⟩, by decide, Or.inl rfl⟩
  have ho : RepArg exW 0 576 .scalar (.key .scalar) := ⟨trivial, by decide, Or.inl rfl⟩
  have hc : Ch.Widths exW 0 576 12 0 (.list [.int 12, .int 7]) [12, 7] :=
    .list _ _ (.cons (.int 12 (by decide) (by decide)) (.cons (.int 7 (by decide) (by decide)) .nil))
  have hi : (Ch.list [.int 12, .int 7]).Ints := .list _ fun c hc => by
      simp only [mem_cons, not_mem_nil, or_false] at hc
      rcases hc with rfl | rfl
      · exact ⟨12, by decide, rfl⟩
      · exact ⟨7, by decide, rfl⟩
  have hσ : ∀ (gs : Gid → GenSet ℝ) sol, NetReach exW 0 gs sol ⟨freshSt, none, 0⟩ := fun _ _ => .start none 0 fun h e => by simp at e
  obtain ⟨E, σ', hE, -⟩ := C40_total (L := 0) (fuel := 13) (exW_single 0 576 (by decide)) (by decide) (by decide) rot_groups (h1 _ _) (fun _ _ C _ => h2 C) (hσ _ _)
    hr ha ho hc hi (by decide) (by decide) (by decide) (by decide)
  obtain ⟨E', τ', hE', -⟩ := C40_total (L := 0) (fuel := 13) (exW_single 0 576 (by decide)) (by decide) (by decide) turn_groups (h1 _ _) (fun _ _ C _ => h2 C) (hσ _ _)
    hr ha ho hc hi (by decide) (by decide) (by decide) (by decide)
  refine ⟨_, rng, E, E', σ', τ', ?_, h1 _ _, h1 _ _, hr, ha, ho, hc, hE, hE'⟩
  intro h
  have h0 : turnM 3 * rotLie 3 * (turnM 3)⁻¹ = rotLie 3 := by
    have : [turnM (exW.d 0) * rotLie (exW.d 0) * (turnM (exW.d 0))⁻¹] = [rotLie (exW.d 0)] := h
    exact (cons.inj this).1
  have e0 : finRotate 3 0 = 1 := by decide
  have e1 : finRotate 3 1 = 2 := by decide
  have e2 : finRotate 3 2 = 0 := by decide
  have h3 := congrFun (congrFun h0 0) 1
  rw [turn_inv, turnM] at h3
  simp [Matrix.mul_apply, Fin.sum_univ_three, Matrix.transpose_apply, Equiv.Perm.permMatrix, PEquiv.toMatrix_apply, rotLie, e0, e1, e2] at h3
  split_ifs at h3 <;> norm_num at h3

/-- the same rotations, generated by half of the generator -/
noncomputable def halfLies (g : Gid) : List (Matrix (Fin (exW.d g)) (Fin (exW.d g)) ℝ) := (rotLies g).map fun A => (1 / 2 : ℝ) • A

theorem half_groups : GroupsOK exW (fun k g => trivialAtom _ _) halfLies fun _ => [] where
  unit g h hh := by simp at hh
  orth g hg := by
    refine ⟨fun A hA => ?_, by simp⟩
    obtain ⟨B, hB, rfl⟩ := mem_map.1 hA
    rw [Matrix.transpose_smul, (rot_groups.orth g hg).1 B hB, smul_neg]
  hom _ _ := trivialAtom_hom _ _
  user k g _ M _ := by simp [trivialAtom]
  perm g hg := by
    have : g = 2 := by simpa [exW] using hg
    subst this
    exact ⟨rfl, by simp⟩

/-- the hypotheses of `C131_same_group` on the two sets of generators are met, and the generators differ -/
example : halfLies 0 ≠ rotLies 0 ∧ (∀ h, Generated (rotLies 0) [] h ↔ Generated (halfLies 0) [] h) ∧
    GroupsOK exW (fun k g => trivialAtom _ _) rotLies (fun _ => []) ∧ GroupsOK exW (fun k g => trivialAtom _ _) halfLies fun _ => [] := by
  refine ⟨fun h => ?_, fun h => ⟨fun hh => hh.mono (fun A hA => Submodule.span_le.2 (fun A hA => ?_) hA) (by simp), fun hh => hh.mono (fun A hA => Submodule.span_le.2 (fun A hA => ?_) hA) (by simp)⟩, rot_groups, half_groups⟩
  · have : [(1 / 2 : ℝ) • rotLie (exW.d 0)] = [rotLie (exW.d 0)] := h
    have h0 : (1 / 2 : ℝ) • rotLie 3 = rotLie 3 := (cons.inj this).1
    have h3 := congrFun (congrFun h0 0) 1
    simp [rotLie] at h3
  · have : A = (2 : ℝ) • ((1 / 2 : ℝ) • A) := by rw [smul_smul]; norm_num
    rw [this]
    exact Submodule.smul_mem _ _ (Submodule.subset_span (mem_map.2 ⟨A, hA, rfl⟩))
  · obtain ⟨B, hB, rfl⟩ := mem_map.1 hA
    exact Submodule.smul_mem _ _ (Submodule.subset_span hB)

end Verif
