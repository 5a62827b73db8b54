import Verif.Props.Counting
import Verif.Props.DualCounts
import Verif.Props.Subgroups

/-! C133: the numbers of basis elements tell whether a smaller group gains anything. -/
namespace Verif
open List

theorem Columns.unique {R : Type} [CommRing R] {W : World} {g : Gid} {gens : Gid → GenSet R} {solve : ℕ → LinOp R → Py (DMat R)} {e : Expr} {m n : ℕ}
    (h : Columns W g gens solve e m) (h' : Columns W g gens solve e n) : m = n := by
  obtain ⟨r, L, hr, hL, rfl⟩ := h []
  obtain ⟨r', L', hr', hL', rfl⟩ := h' []
  rw [hr] at hr'
  cases hr'
  rw [hL] at hL'
  cases hL'
  rfl

section
variable {W : World} {g : Gid} {N : ℕ} {custom : ∀ k g, AtomRep ℝ (W.d g) (W.usize k g)} {lie disc lie' disc' : ∀ g, List (Matrix (Fin (W.d g)) (Fin (W.d g)) ℝ)}
  {solve solve' : ℕ → LinOp ℝ → Py (DMat ℝ)}

/-- **C133.** Let the first group be contained in the second.  They have the same number of basis elements in a representation if and only if the second fixes every
vector that the first fixes. -/
theorem C133_detects (hW : W.SingleOK g N) (ok : GroupsOK W custom lie disc) (ok' : GroupsOK W custom lie' disc')
    (hsol : SolverOK W (gensOf W (stdAtoms W custom) lie disc) solve) (htot : SolverRuns W (gensOf W (stdAtoms W custom) lie disc) solve)
    (hsol' : SolverOK W (gensOf W (stdAtoms W custom) lie' disc') solve') (htot' : SolverRuns W (gensOf W (stdAtoms W custom) lie' disc') solve')
    (hsub : ∀ h, Generated (lie g) (disc g) h → Generated (lie' g) (disc' g) h) {e : Expr} (he : e.OK W g) (hN : e.bound W g ≤ N) {m n : ℕ}
    (h1 : Columns W g (gensOf W (stdAtoms W custom) lie disc) solve e m) (h2 : Columns W g (gensOf W (stdAtoms W custom) lie' disc') solve' e n) :
    m = n ↔ ∀ v : List ℝ, v.length = e.dim W g → (∀ h, Generated (lie g) (disc g) h → (e.den g (Interp.elem W custom g h)).1.mulVec v = v) →
      ∀ h, Generated (lie' g) (disc' g) h → (e.den g (Interp.elem W custom g h)).1.mulVec v = v := by
  obtain ⟨S, hS, hc⟩ := C132_dimension hW ok hsol htot he hN
  obtain ⟨S', hS', hc'⟩ := C132_dimension hW ok' hsol' htot' he hN
  have le : S' ≤ S := fun v hv => (hS v).2 fun h hh => (hS' v).1 hv h (hsub h hh)
  rw [h1.unique hc, h2.unique hc']
  constructor
  · intro hf v hv hfix
    have hof : List.ofFn (fun i : Fin (e.dim W g) => v.getD i 0) = v := List.ext_getElem (by simp [hv]) fun i a b => by simp [b]
    have hm : (fun i : Fin (e.dim W g) => v.getD i 0) ∈ S := (hS _).2 (by rw [hof]; exact hfix)
    rw [← Submodule.eq_of_le_of_finrank_eq le hf.symm] at hm
    have := (hS' _).1 hm
    rwa [hof] at this
  · intro hf
    have : S = S' := le_antisymm (fun v hv => (hS' v).2 (hf _ (by simp) ((hS v).1 hv))) le
    rw [this]

/-- A matrix is an equivariant map if and only if it is fixed as a vector of `a >> o`. -/
theorem rshift_fixed {I : Interp ℝ} (hI : I.Dual W) {ea eo : Expr} {M : DMat ℝ} (hM : M.rows = eo.dim W g) (hM' : M.cols = ea.dim W g) :
    ((Expr.rshift ea eo).den g I).1.mulVec M.flat = M.flat ↔ M.mul (ea.den g I).1 = (eo.den g I).1.mul M := by
  have pa := Expr.den_pair (g := g) hI ea
  have po := Expr.den_pair (g := g) hI eo
  show (DMat.kron (eo.den g I).1 (ea.den g I).2).mulVec M.flat = M.flat ↔ _
  rw [DMat.kron_mulVec_flat _ _ _ (by rw [po.sq1.2, hM]) (by rw [pa.sq2.2, hM'])]
  have st : (ea.den g I).2.transpose.IsSq (ea.dim W g) := ⟨pa.sq2.2, pa.sq2.1⟩
  have inv' := DMat.mul_eq_one_comm st pa.sq1 pa.inv
  constructor
  · intro h
    have h' := DMat.flat_inj (M := ((eo.den g I).1.mul M).mul (ea.den g I).2.transpose) (N := M) (by rw [DMat.mul_rows, DMat.mul_rows, po.sq1.1, hM])
      (by rw [DMat.mul_cols, DMat.transpose_cols, pa.sq2.1, hM']) h
    conv_lhs => rw [← h']
    rw [DMat.mul_assoc' _ _ _ (by rw [DMat.mul_cols, hM', st.1]), pa.inv, DMat.mul_one' _ (by rw [DMat.mul_cols, hM'])]
  · intro h
    rw [← h, DMat.mul_assoc' _ _ _ (by rw [hM', pa.sq1.1]), inv', DMat.mul_one' _ hM']

/-- **C133.** Let the first group be contained in the second.  The layer for the first computes only what the layer for the second computes if and only if the two
groups have the same number of equivariant maps, and the same number of invariants in the output. -/
theorem C133_layers (hW : W.SingleOK g N) (ok : GroupsOK W custom lie disc) (ok' : GroupsOK W custom lie' disc')
    (hsol : SolverOK W (gensOf W (stdAtoms W custom) lie disc) solve) (htot : SolverRuns W (gensOf W (stdAtoms W custom) lie disc) solve)
    (hsol' : SolverOK W (gensOf W (stdAtoms W custom) lie' disc') solve') (htot' : SolverRuns W (gensOf W (stdAtoms W custom) lie' disc') solve')
    (hsub : ∀ h, Generated (lie g) (disc g) h → Generated (lie' g) (disc' g) h)
    {σ σ' τ τ' : NetSt ℝ} (hσ : NetReach W g (gensOf W (stdAtoms W custom) lie disc) solve σ)
    (hσ' : NetReach W g (gensOf W (stdAtoms W custom) lie' disc') solve' σ')
    {ea eo : Expr} {a o : Rep} (ha : ea.OK W g) (ho : eo.OK W g) (hN : (Expr.rshift ea eo).bound W g ≤ N) (hea : ea.eval W g = .ok a) (heo : eo.eval W g = .ok o)
    {L L' : LinearL ℝ} (hL : LinearL.init W (gensOf W (stdAtoms W custom) lie disc) solve a o σ = .ok (L, τ))
    (hL' : LinearL.init W (gensOf W (stdAtoms W custom) lie' disc') solve' a o σ' = .ok (L', τ'))
    {m n p q : ℕ} (h1 : Columns W g (gensOf W (stdAtoms W custom) lie disc) solve (.rshift ea eo) m)
    (h2 : Columns W g (gensOf W (stdAtoms W custom) lie' disc') solve' (.rshift ea eo) n)
    (h3 : Columns W g (gensOf W (stdAtoms W custom) lie disc) solve eo p) (h4 : Columns W g (gensOf W (stdAtoms W custom) lie' disc') solve' eo q) :
    (∀ f : List ℝ → List ℝ,
      (∃ (w : DMat ℝ) (b : List ℝ), w.rows = o.size W ∧ w.cols = a.size W ∧ b.length = o.size W ∧ ∀ x : List ℝ, x.length = a.size W → L.apply w b x = .ok (f x)) →
      ∃ (w : DMat ℝ) (b : List ℝ), w.rows = o.size W ∧ w.cols = a.size W ∧ b.length = o.size W ∧ ∀ x : List ℝ, x.length = a.size W → L'.apply w b x = .ok (f x)) ↔
    m = n ∧ p = q := by
  have nn := hN
  simp only [Expr.bound] at nn
  obtain ⟨a', ea', wa, ka, sa, ma⟩ := Expr.eval_good hW ea ha (by omega)
  obtain ⟨o', eo', wo, ko, so, mo⟩ := Expr.eval_good hW eo ho (by omega)
  rw [hea] at ea'
  cases ea'
  rw [heo] at eo'
  cases eo'
  have oa : a.Over W g N := ⟨wa, ka⟩
  have oo : o.Over W g N := ⟨wo, ko⟩
  have hoa : o.size W * a.size W ≤ N := by rw [sa, so]; omega
  have c1 := C104_layers hW ok hsol hσ oa oo hoa hL
  have c2 := C104_layers hW ok' hsol' hσ' oa oo hoa hL'
  rw [C133_detects hW ok ok' hsol htot hsol' htot' hsub (e := .rshift ea eo) ⟨ha, ho⟩ hN h1 h2,
    C133_detects hW ok ok' hsol htot hsol' htot' hsub ho (by omega) h3 h4]
  -- a map and a vector give a function of a layer if and only if they are equivariant
  have fwd : ∀ {lie₁ disc₁ : ∀ g, List (Matrix (Fin (W.d g)) (Fin (W.d g)) ℝ)}, GroupsOK W custom lie₁ disc₁ → ∀ {M : DMat ℝ} {c : List ℝ}, M.rows = o.size W →
      M.cols = a.size W → c.length = o.size W →
      ((∀ h, Generated (lie₁ g) (disc₁ g) h → ∀ x : List ℝ, x.length = a.size W →
        zipWith (· + ·) (M.mulVec ((a.mat (Interp.elem W custom g h)).mulVec x)) c = (o.mat (Interp.elem W custom g h)).mulVec (zipWith (· + ·) (M.mulVec x) c)) ↔
      ((∀ h, Generated (lie₁ g) (disc₁ g) h → ((Expr.rshift ea eo).den g (Interp.elem W custom g h)).1.mulVec M.flat = M.flat) ∧
        ∀ h, Generated (lie₁ g) (disc₁ g) h → (eo.den g (Interp.elem W custom g h)).1.mulVec c = c)) := by
    intro lie₁ disc₁ ok₁ M c hM hM' hc
    have q1 : ∀ h, (a.mat (Interp.elem W custom g h)).IsSq (a.size W) := fun h => Rep.mat_sq (at_sized _) wa
    have q2 : ∀ h, (o.mat (Interp.elem W custom g h)).IsSq (o.size W) := fun h => Rep.mat_sq (at_sized _) wo
    constructor
    · intro hf
      have k := fun h hh => affine_commutes (f := fun x => zipWith (· + ·) (M.mulVec x) c) hM hM' hc (q1 h) (q2 h) (fun x _ => rfl) (hf h hh)
      refine ⟨fun h hh => ?_, fun h hh => ?_⟩
      · rw [rshift_fixed (elem_dual ok₁ hh) (hM.trans so) (hM'.trans sa), ← ma ℝ _ (elem_dual ok₁ hh), ← mo ℝ _ (elem_dual ok₁ hh)]
        exact (k h hh).1
      · rw [← mo ℝ _ (elem_dual ok₁ hh)]
        exact (k h hh).2
    · rintro ⟨f1, f2⟩ h hh x hx
      have i1 := f1 h hh
      rw [rshift_fixed (elem_dual ok₁ hh) (hM.trans so) (hM'.trans sa), ← ma ℝ _ (elem_dual ok₁ hh), ← mo ℝ _ (elem_dual ok₁ hh)] at i1
      have i2 := f2 h hh
      rw [← mo ℝ _ (elem_dual ok₁ hh)] at i2
      rw [DMat.mulVec_add _ (by rw [DMat.length_mulVec, hM, hc]), i2, ← DMat.mulVec_mul _ _ _ (by rw [hM', (q1 h).1]), i1, DMat.mulVec_mul _ _ _ (by rw [(q2 h).2, hM])]
  constructor
  · intro hall
    refine ⟨fun v hv hfix => ?_, fun c hc hfix => ?_⟩
    · obtain ⟨M, hMd⟩ : ∃ M : DMat ℝ, M = DMat.unflat (o.size W) (a.size W) v := ⟨_, rfl⟩
      have hM : M.rows = o.size W := by rw [hMd]; rfl
      have hM' : M.cols = a.size W := by rw [hMd]; rfl
      have hMf : M.flat = v := by rw [hMd]; exact DMat.unflat_flat (by rw [hv, so, sa]; rfl)
      have z : (replicate (o.size W) (0 : ℝ)).length = o.size W := length_replicate
      have hz : ∀ X : DMat ℝ, X.mulVec (replicate (o.size W) 0) = replicate X.rows 0 := fun X => DMat.mulVec_replicate_zero X _
      have := hall (fun x => zipWith (· + ·) (M.mulVec x) (replicate (o.size W) 0)) ((c1 _).2 ⟨⟨M, _, hM, hM', z, fun x _ => rfl⟩,
        (fwd ok hM hM' z).2 ⟨by rw [hMf]; exact hfix, fun h hh => by rw [hz, (Expr.den_pair (g := g) (elem_dual ok hh) eo).sq1.1, so]⟩⟩)
      have k := ((fwd ok' hM hM' z).1 ((c2 _).1 this).2).1
      rwa [hMf] at k
    · obtain ⟨M, hMd⟩ : ∃ M : DMat ℝ, M = DMat.zero (o.size W) (a.size W) := ⟨_, rfl⟩
      have hM : M.rows = o.size W := by rw [hMd]; rfl
      have hM' : M.cols = a.size W := by rw [hMd]; rfl
      have hMf : M.flat = replicate (o.size W * a.size W) 0 := by
        refine DMat.vec_ext (by rw [DMat.length_flat, hM, hM', length_replicate]) fun i _ => ?_
        rw [flat_getD]
        have e0 : ∀ i j, M.e i j = 0 := fun i j => by
          rw [hMd]
          by_cases hij : i < o.size W ∧ j < a.size W
          · exact DMat.of_e hij.1 hij.2
          · exact DMat.out _ _ _ hij
        rw [e0]
        simp
      have hc' : c.length = o.size W := hc.trans so.symm
      have := hall (fun x => zipWith (· + ·) (M.mulVec x) c) ((c1 _).2 ⟨⟨M, _, hM, hM', hc', fun x _ => rfl⟩,
        (fwd ok hM hM' hc').2 ⟨fun h hh => by
          rw [hMf, DMat.mulVec_replicate_zero, (Expr.den_pair (g := g) (elem_dual ok hh) (.rshift ea eo)).sq1.1, so, sa]; rfl, hfix⟩⟩)
      exact ((fwd ok' hM hM' hc').1 ((c2 _).1 this).2).2
  · rintro ⟨f1, f2⟩ f hf
    obtain ⟨⟨M, c, hM, hM', hc, hfe⟩, hcom⟩ := (c1 f).1 hf
    refine (c2 f).2 ⟨⟨M, c, hM, hM', hc, hfe⟩, ?_⟩
    have pack : ∀ h x, x.length = a.size W → (f ((a.mat (Interp.elem W custom g h)).mulVec x) = (o.mat (Interp.elem W custom g h)).mulVec (f x) ↔
        zipWith (· + ·) (M.mulVec ((a.mat (Interp.elem W custom g h)).mulVec x)) c = (o.mat (Interp.elem W custom g h)).mulVec (zipWith (· + ·) (M.mulVec x) c)) :=
      fun h x hx => by rw [hfe x hx, hfe _ (by rw [DMat.length_mulVec]; exact (Rep.mat_sq (at_sized _) wa).1)]
    obtain ⟨g1, g2⟩ := (fwd ok hM hM' hc).1 fun h hh x hx => (pack h x hx).1 (hcom h hh x hx)
    intro h hh x hx
    refine (pack h x hx).2 ((fwd ok' hM hM' hc).2 ⟨f1 _ (by rw [DMat.length_flat, hM, hM', so, sa]; rfl) g1, f2 c (hc.trans so) g2⟩ h hh x hx)

end

/-- The hypotheses of `C133_detects` and `C133_layers` can be met: layers from vectors to vectors, for the rotations about one axis and about two axes. -/
example : ∃ (solve : ℕ → LinOp ℝ → Py (DMat ℝ)) (L L' : LinearL ℝ) (τ τ' : NetSt ℝ) (m n p q : ℕ),
    exW.SingleOK 0 81 ∧ GroupsOK exW (fun k g => trivialAtom _ _) rotLies (fun _ => []) ∧ GroupsOK exW (fun k g => trivialAtom _ _) twoLies (fun _ => []) ∧
    SolverOK exW (gensOf exW (stdAtoms exW fun k g => trivialAtom _ _) rotLies fun _ => []) solve ∧
    SolverRuns exW (gensOf exW (stdAtoms exW fun k g => trivialAtom _ _) rotLies fun _ => []) solve ∧
    SolverOK exW (gensOf exW (stdAtoms exW fun k g => trivialAtom _ _) twoLies fun _ => []) solve ∧
    SolverRuns exW (gensOf exW (stdAtoms exW fun k g => trivialAtom _ _) twoLies fun _ => []) solve ∧
    (∀ h, Generated (rotLies 0) [] h → Generated (twoLies 0) [] h) ∧
    (Expr.rep 0).OK exW 0 ∧ (Expr.rshift (.rep 0) (.rep 0)).bound exW 0 ≤ 81 ∧ (Expr.rep 0).eval exW 0 = .ok (.key (.fac (.atom (.vec 0 (some 0))))) ∧
    LinearL.init exW (gensOf exW (stdAtoms exW fun k g => trivialAtom _ _) rotLies fun _ => []) solve (.key (.fac (.atom (.vec 0 (some 0))))) (.key (.fac (.atom (.vec 0 (some 0)))))
      ⟨freshSt, none, 0⟩ = .ok (L, τ) ∧
    LinearL.init exW (gensOf exW (stdAtoms exW fun k g => trivialAtom _ _) twoLies fun _ => []) solve (.key (.fac (.atom (.vec 0 (some 0))))) (.key (.fac (.atom (.vec 0 (some 0)))))
      ⟨freshSt, none, 0⟩ = .ok (L', τ') ∧
    Columns exW 0 (gensOf exW (stdAtoms exW fun k g => trivialAtom _ _) rotLies fun _ => []) solve (.rshift (.rep 0) (.rep 0)) m ∧
    Columns exW 0 (gensOf exW (stdAtoms exW fun k g => trivialAtom _ _) twoLies fun _ => []) solve (.rshift (.rep 0) (.rep 0)) n ∧
    Columns exW 0 (gensOf exW (stdAtoms exW fun k g => trivialAtom _ _) rotLies fun _ => []) solve (.rep 0) p ∧
    Columns exW 0 (gensOf exW (stdAtoms exW fun k g => trivialAtom _ _) twoLies fun _ => []) solve (.rep 0) q := by
  obtain ⟨s, h1, h2⟩ := exists_solver ℝ
  have hW := exW_single 0 81 (by decide)
  have hv : (Expr.rep 0).OK exW 0 := ⟨by decide, .inl rfl⟩
  have hr : (Rep.key (.fac (.atom (.vec 0 (some 0))))).Over exW 0 81 := exV_over
  have hσ : ∀ (gs : Gid → GenSet ℝ) sol, NetReach exW 0 gs sol ⟨freshSt, none, 0⟩ := fun _ _ => .start none 0 fun h e => by simp at e
  obtain ⟨L, τ, e1⟩ := (C30_linear hW rot_groups (h1 _ _) (hσ _ _) hr hr (by decide)).2 (fun _ _ C _ => h2 C)
  obtain ⟨L', τ', e2⟩ := (C30_linear hW two_groups (h1 _ _) (hσ _ _) hr hr (by decide)).2 (fun _ _ C _ => h2 C)
  obtain ⟨_, -, c1⟩ := C132_dimension hW rot_groups (h1 _ _) (fun _ _ C _ => h2 C) (e := .rshift (.rep 0) (.rep 0)) ⟨hv, hv⟩ (by decide)
  obtain ⟨_, -, c2⟩ := C132_dimension hW two_groups (h1 _ _) (fun _ _ C _ => h2 C) (e := .rshift (.rep 0) (.rep 0)) ⟨hv, hv⟩ (by decide)
  obtain ⟨_, -, c3⟩ := C132_dimension hW rot_groups (h1 _ _) (fun _ _ C _ => h2 C) hv (by decide)
  obtain ⟨_, -, c4⟩ := C132_dimension hW two_groups (h1 _ _) (fun _ _ C _ => h2 C) hv (by decide)
  exact ⟨_, L, L', τ, τ', _, _, _, _, hW, rot_groups, two_groups, h1 _ _, fun _ _ C _ => h2 C, h1 _ _, fun _ _ C _ => h2 C,
    fun h hh => hh.mono (fun A hA => Submodule.span_mono (fun A hA => mem_append_left _ hA) hA) (by simp), hv, by decide, rfl, e1, e2, c1, c2, c3, c4⟩

end Verif
