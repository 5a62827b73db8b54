import Verif.Lemmas.LinearLayer
import Verif.Lemmas.MultiExpr
import Verif.Props.Sampled
import Verif.Props.Layers

/-! Linear layers between representations of several groups. -/
namespace Verif
open List

section
variable {W : World} {N : ℕ} {S : Key → Prop}

/-- `a>>b` in a class of summands closed under products and duals: the vectors fixed by it are the matrices that commute. -/
theorem Rep.rshift_class (hS : KeyClass W S N) (hT : DualClass W S) {a b : Rep} (ha : a.WF W) (hb : b.WF W)
    (hka : ∀ k ∈ a.keys W, S k) (hkb : ∀ k ∈ b.keys W, S k) (hN : b.size W * a.size W ≤ N) :
    ∃ r, Rep.rshift W a b = .ok r ∧ r.WF W ∧ (∀ k ∈ r.keys W, S k) ∧ r.size W = b.size W * a.size W ∧
      ∀ (R : Type) [CommRing R] (I : Interp R), I.Dual W → ∀ M : DMat R, M.rows = b.size W → M.cols = a.size W →
        ((r.mat I).mulVec M.flat = M.flat ↔ M.mul (a.mat I) = (b.mat I).mul M) := by
  obtain ⟨t, ht, htw, htk, htz, htm⟩ := Rep.T_spec hS hT ha hka
  obtain ⟨r, hr, hwf, hrk, hsz, hm⟩ := Rep.mul_spec hS hb htw hkb htk (by rw [htz]; exact hN)
  refine ⟨r, by simp [Rep.rshift, ht, hr, bind, Except.bind], hwf, hrk, by rw [hsz, htz], ?_⟩
  intro R _ I hI M hM hM'
  have sa := Rep.mat_sq hI.toSized ha
  have sb := Rep.mat_sq hI.toSized hb
  have st := Rep.mat_sq hI.toSized htw
  have i1 := htm R I hI
  have sX : (t.mat I).transpose.IsSq (a.size W) := ⟨by rw [DMat.transpose_rows, st.2, htz], by rw [DMat.transpose_cols, st.1, htz]⟩
  have i2 := DMat.mul_eq_one_comm sX sa i1
  have act : (r.mat I).mulVec M.flat = (((b.mat I).mul M).mul (t.mat I).transpose).flat := by
    rw [hm R I hI.toSized]
    exact DMat.kron_mulVec_flat _ _ _ (by rw [sb.2, hM]) (by rw [st.2, htz, hM'])
  rw [act]
  constructor
  · intro hf
    have hf' := DMat.flat_inj (by simp [sb.1, hM]) (by simp [sX.2, hM', st.1, htz]) hf
    calc M.mul (a.mat I) = ((((b.mat I).mul M).mul (t.mat I).transpose)).mul (a.mat I) := by rw [hf']
      _ = ((b.mat I).mul M).mul ((t.mat I).transpose.mul (a.mat I)) := DMat.mul_assoc' _ _ _ (by rw [DMat.mul_cols, hM', sX.1])
      _ = _ := by rw [i1, DMat.mul_one' _ (by rw [DMat.mul_cols, hM'])]
  · intro hf
    rw [← hf, DMat.mul_assoc' _ _ _ (by rw [hM', sa.1]), i2, DMat.mul_one' _ hM']

end

variable {W : World} {Γ : Gid → Prop} {κ : Gid → ℕ} {g0 : Gid} {N : ℕ} {x : Option Gid}

/-- A concrete representation whose summands are products of the given representations, `g0` being the only group that occurs alone. -/
structure Rep.MOver (W : World) (Γ : Gid → Prop) (κ : Gid → ℕ) (g0 : Gid) (N : ℕ) (r : Rep) : Prop where
  wf : r.WF W
  key : ∀ k ∈ r.keys W, W.MultiAt Γ κ g0 N k

theorem setG_multiAt (k : Key) : (W.setG x).MultiAt Γ κ g0 N k ↔ W.MultiAt Γ κ g0 N k := by
  cases k <;> exact Iff.rfl

theorem World.MultiOK.setG (h : W.MultiOK Γ κ g0 N) (hx : SgOK W g0 x) : (W.setG x).MultiOK Γ κ g0 N :=
  { two := h.two, inj := h.inj, pos := h.pos,
    hinj := fun a b ha hb e => h.hinj a b ((setG_multiAt a).1 ha) ((setG_multiAt b).1 hb) e, sG := hx }

theorem setG_lt_multi (h : W.MultiOK Γ κ g0 N) (hx : SgOK W g0 x) {a b : Key} (ha : W.MultiAt Γ κ g0 N a) (hb : W.MultiAt Γ κ g0 N b) :
    Key.lt (W.setG x) a b = Key.lt W a b := by
  rw [Bool.eq_iff_iff, World.MultiAt.lt_iff (h.setG hx) ((setG_multiAt a).2 ha) ((setG_multiAt b).2 hb), World.MultiAt.lt_iff h ha hb]
  exact Iff.rfl

theorem Rep.MOver.setG (h : W.MultiOK Γ κ g0 N) (hx : SgOK W g0 x) {r : Rep} (hr : r.MOver W Γ κ g0 N) : r.MOver (W.setG x) Γ κ g0 N := by
  refine ⟨?_, fun k hk => (setG_multiAt k).2 (hr.key k hk)⟩
  match r, hr with
  | .key k, hr => exact (setG_kwf k).2 hr.wf
  | .sum s, hr =>
    have hw : s.WF W := hr.wf
    exact ⟨hw.cnt.congr fun a ha b hb => setG_lt_multi h hx (hr.key a ha) (hr.key b hb),
      fun k hk => ⟨(setG_kwf k).2 (hw.key k hk).1, (hw.key k hk).2⟩, hw.perm⟩

theorem Rep.MOver.unsetG (h : W.MultiOK Γ κ g0 N) (hx : SgOK W g0 x) {r : Rep} (hr : r.MOver (W.setG x) Γ κ g0 N) : r.MOver W Γ κ g0 N := by
  refine ⟨?_, fun k hk => (setG_multiAt k).1 (hr.key k hk)⟩
  match r, hr with
  | .key k, hr => exact (setG_kwf k).1 hr.wf
  | .sum s, hr =>
    have hw : s.WF (W.setG x) := hr.wf
    exact ⟨hw.cnt.congr fun a ha b hb => (setG_lt_multi h hx ((setG_multiAt a).1 (hr.key a ha)) ((setG_multiAt b).1 (hr.key b hb))).symm,
      fun k hk => ⟨(setG_kwf k).1 (hw.key k hk).1, (hw.key k hk).2⟩, hw.perm⟩

theorem power_G (a : Atom) (n : ℕ) (hn : n ≠ 0) : (Fac.power W a n).G = a.G := by
  unfold Fac.power
  split
  · rfl
  · rfl

theorem World.MultiAt.onePerGroup (h : W.MultiOK Γ κ g0 N) {k : Key} (hk : W.MultiAt Γ κ g0 N k) : k.OnePerGroup := by
  match k, hk with
  | .scalar, _ => trivial
  | .fac f, _ => trivial
  | .dprod d, ⟨_, ⟨l, l1, l2, l3, l4, l5⟩, _⟩ =>
    show (d.c.keys.map Fac.G).Nodup
    have : d.c.keys.map Fac.G = l.map fun x => some x.1 := by
      rw [l4, Counter.keys, map_map, map_map]
      refine map_congr_left fun x hx => ?_
      simp only [Function.comp]
      rw [power_G _ _ (l2 x hx).2]
      rfl
    rw [this]
    rw [List.Nodup, List.pairwise_map]
    exact l3.imp fun {a b} hab e => by
      rw [Option.some.inj e] at hab
      exact absurd hab (lt_irrefl _)

theorem Rep.MOver.onePerGroup (h : W.MultiOK Γ κ g0 N) {r : Rep} (hr : r.MOver W Γ κ g0 N) : r.OnePerGroup := by
  match r, hr with
  | .key .scalar, _ => trivial
  | .key (.fac f), _ => trivial
  | .key (.dprod d), hr => exact World.MultiAt.onePerGroup h (k := .dprod ⟨d.c, range (d.size W)⟩) (hr.key _ (by simp [Rep.keys, Key.base]))
  | .sum s, hr => exact fun k hk => World.MultiAt.onePerGroup h (hr.key k hk)

section
variable {R : Type} [CommRing R] [StarRing R] {gens : Gid → GenSet R} {solve : ℕ → LinOp R → Py (DMat R)}
variable (hW : W.MultiOK Γ κ g0 N) (ho : ∀ g, Γ g → W.orth g = true) (hs : GenSet.Sized W gens) (hsol : SolverOK W gens solve) {a b : Rep}
  (ha : a.MOver W Γ κ g0 N) (hb : b.MOver W Γ κ g0 N)
include hW hs hsol hb

theorem projector_net_multi : NetM.Meets W g0 gens (NetM.solver W fun W => b.equivariantProjector W gens solve) fun L =>
    L.sem.IsSq (b.size W) ∧ ∀ v : List R, v.length = b.size W → b.Fixed W gens (L.sem.mulVec v) := by
  refine NetM.Meets.solver fun x hx => ?_
  have hb' := hb.setG hW hx
  have := Rep.projector_meets (W := W.setG x) (solve := solve) (setG_gsized.2 hs) hsol hb'.wf (hb'.onePerGroup (hW.setG hx))
  intro τ hτ
  obtain ⟨h1, h2⟩ := this τ hτ
  refine ⟨h1, fun L hL => ?_⟩
  obtain ⟨Q, hQ, e⟩ := h2 L hL
  exact hQ.range e

include ha ho in
theorem LinearL.init_meets_multi (hN : b.size W * a.size W ≤ N) :
    NetM.Meets W g0 gens (LinearL.init W gens solve a b) (LinearL.Good W gens a b) := by
  unfold LinearL.init
  refine NetM.Meets.bind (P := fun r => r.MOver W Γ κ g0 N ∧ r.size W = b.size W * a.size W ∧
    ∀ I : Interp R, I.Dual W → ∀ M : DMat R, M.rows = b.size W → M.cols = a.size W →
      (r.mat I).mulVec M.flat = M.flat → M.mul (a.mat I) = (b.mat I).mul M) ?_ ?_
  · refine NetM.Meets.lift fun x hx r hr => ?_
    have ha' := ha.setG hW hx
    have hb' := hb.setG hW hx
    obtain ⟨r', h1, h2, h3, h4, h5⟩ := Rep.rshift_class (hW.setG hx).keyClass ((hW.setG hx).dualClass ho) ha'.wf hb'.wf ha'.key hb'.key hN
    rw [h1] at hr
    have := Except.ok.inj hr
    subst this
    exact ⟨Rep.MOver.unsetG hW hx ⟨h2, h3⟩, h4, fun I hI M hM hM' hf => (h5 R I (setG_dual.2 hI) M hM hM').1 hf⟩
  · rintro r ⟨hr, hz, hint⟩
    refine NetM.Meets.bind (projector_net_multi hW hs hsol hr) fun Pw hPw => ?_
    refine NetM.Meets.bind (projector_net_multi hW hs hsol hb) fun Pb hPb => ?_
    exact NetM.Meets.pure ⟨rfl, rfl, ⟨r, hr.wf, hz, hint, hPw⟩, hPb⟩

include ha ho in
theorem LinearL.init_runs_multi (ht : SolverRuns W gens solve) (hN : b.size W * a.size W ≤ N) :
    NetM.Runs W g0 gens (LinearL.init W gens solve a b) := by
  unfold LinearL.init
  refine NetM.Runs.bind (P := fun r => r.MOver W Γ κ g0 N) ?_ ?_ ?_
  · refine NetM.Runs.lift fun x hx => ?_
    have ha' := ha.setG hW hx
    have hb' := hb.setG hW hx
    obtain ⟨r', h1, -⟩ := Rep.rshift_class (hW.setG hx).keyClass ((hW.setG hx).dualClass ho) ha'.wf hb'.wf ha'.key hb'.key hN
    exact ⟨r', h1⟩
  · refine NetM.Meets.lift fun x hx r hr => ?_
    have ha' := ha.setG hW hx
    have hb' := hb.setG hW hx
    obtain ⟨r', h1, h2, h3, -⟩ := Rep.rshift_class (hW.setG hx).keyClass ((hW.setG hx).dualClass ho) ha'.wf hb'.wf ha'.key hb'.key hN
    rw [h1] at hr
    have := Except.ok.inj hr
    subst this
    exact Rep.MOver.unsetG hW hx ⟨h2, h3⟩
  · intro r hr
    refine NetM.Runs.bind (NetM.Runs.solver fun x hx => Rep.projector_runs (W := W.setG x) (setG_gsized.2 hs) ht (hr.setG hW hx).wf)
      (projector_net_multi hW hs hsol hr) fun Pw _ => ?_
    refine NetM.Runs.bind (NetM.Runs.solver fun x hx => Rep.projector_runs (W := W.setG x) (setG_gsized.2 hs) ht (hb.setG hW hx).wf)
      (projector_net_multi hW hs hsol hb) fun Pb _ => ?_
    exact NetM.Runs.pure

end

section
variable {custom : ∀ k g, AtomRep ℝ (W.d g) (W.usize k g)} {lie disc : ∀ g, List (Matrix (Fin (W.d g)) (Fin (W.d g)) ℝ)}
  {M : ∀ g, Matrix (Fin (W.d g)) (Fin (W.d g)) ℝ}

/-- One element per group, acting on the atoms. -/
theorem at_dual (ok : GroupsOK W custom lie disc) (hM : ∀ g, Generated (lie g) (disc g) (M g)) : (Interp.at W (stdAtoms W custom) M).Dual W where
  toSized := at_sized _
  inv k g' := by
    have hu := rho_isUnit (stdAtoms_hom ok.hom k g') (ok.unit g') (hM g')
    show (DMat.ofMatrix (((stdAtoms W custom k g').rho (M g'))⁻¹.transpose)).transpose.mul (DMat.ofMatrix _) = _
    rw [← DMat.ofMatrix_transpose, Matrix.transpose_transpose, ← DMat.ofMatrix_mul, Matrix.nonsing_inv_mul _ hu, DMat.ofMatrix_one]
  orth k g' ho := by
    have hM' := ok.orthogonal ho (hM g')
    have : ((stdAtoms W custom k g').rho (M g')).transpose * (stdAtoms W custom k g').rho (M g') = 1 := by
      cases k with
      | zero => exact hM'
      | succ k => exact ok.user (k + 1) g' ho _ (hM g')
    show (DMat.ofMatrix ((stdAtoms W custom k g').rho (M g'))).transpose.mul (DMat.ofMatrix _) = _
    rw [← DMat.ofMatrix_transpose, ← DMat.ofMatrix_mul, this, DMat.ofMatrix_one]

theorem at_fixes (ok : GroupsOK W custom lie disc) (hM : ∀ g, Generated (lie g) (disc g) (M g)) {gs : List Gid} (hgs : ∀ g ∉ gs, M g = 1) :
    Fixes W (gensOf W (stdAtoms W custom) lie disc) (Interp.at W (stdAtoms W custom) M) := fun _ hr _ hv hfix =>
  C25_generated (stdAtoms_hom ok.hom) ok.unit hr hv hfix hM hgs

end

end Verif
