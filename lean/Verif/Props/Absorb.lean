import Verif.Props.Wrap
import Verif.Props.Standardize

/-! C137: `Standardize` with statistics that respect the group does not change what a network can compute. -/
namespace Verif
open List

section
variable {W : World} {g : Gid} {N : ℕ} {custom : ∀ k g, AtomRep ℝ (W.d g) (W.usize k g)}
  {lie disc : ∀ g, List (Matrix (Fin (W.d g)) (Fin (W.d g)) ℝ)} {solve : ℕ → LinOp ℝ → Py (DMat ℝ)} {a o : Rep} {v : List ℝ}

theorem AE.shift (ha : a.WF W) (hv : v.length = a.size W) (h : ∀ t, Generated (lie g) (disc g) t → (a.mat (Interp.elem W custom g t)).mulVec v = v) (c : ℝ) :
    AE W g custom lie disc a a fun x => zipWith (fun p q => p + c * q) x v := by
  refine ⟨⟨DMat.one (a.size W), v.map (c * ·), rfl, rfl, by simp [hv], fun x hx => ?_⟩, fun t ht x hx => ?_⟩
  · rw [DMat.mulVec_one x hx, zipWith_map_right]
  · exact (mulVec_shift (Rep.mat_sq (at_sized _) ha) hx hv (h t ht) c).symm

theorem AE.scale (ha : a.WF W) (hv : v.length = a.size W)
    (h : ∀ t, Generated (lie g) (disc g) t → ∀ i < a.size W, ∀ j < a.size W, (a.mat (Interp.elem W custom g t)).e i j ≠ 0 → v.getD i 0 = v.getD j 0) (φ : ℝ → ℝ) :
    AE W g custom lie disc a a fun x => zipWith (fun p q => p * φ q) x v := by
  refine ⟨(Affine.lin (M := DMat.of (a.size W) (a.size W) fun i j => if i = j then φ (v.getD i 0) else 0) rfl rfl).congr fun x hx => ?_, fun t ht x hx => ?_⟩
  · replace hx : x.length = a.size W := hx
    refine DMat.vec_ext (by simp [hx, hv]) fun i hi => ?_
    have hi' : i < a.size W := by simpa [hx, hv] using hi
    rw [getD_zipWith' _ (by rw [hx, hv]) (by rw [hx]; exact hi'), DMat.getD_mulVec (by exact hi'), Finset.sum_eq_single i]
    · rw [DMat.of_e hi' hi', if_pos rfl, mul_comm]
    · intro j hj hij
      rw [DMat.of_e (n := a.size W) hi' (Finset.mem_range.1 hj), if_neg (Ne.symm hij), zero_mul]
    · intro hn
      exact absurd (Finset.mem_range.2 hi') hn
  · exact (mulVec_scale (Rep.mat_sq (at_sized _) ha) hx hv (h t ht) φ).symm

/-- A network and itself. -/
theorem Emlp.Paired.kin {gens : Gid → GenSet ℝ} {mids : List Rep} {E E' : Emlp ℝ} (h : Emlp.Paired W g N gens gens a mids o E E') :
    Emlp.Kin W g N gens a a mids o o E E' := by
  refine ⟨h.fields, h.fields', fun e => ?_, fun r t e => ?_, h.last, h.last'⟩
  · subst e
    have := h.blocks
    simp only [zip_nil_right] at this
    revert this
    generalize E.blocks = Bs
    generalize E'.blocks = Bs'
    intro this
    cases this
    exact ⟨rfl, rfl⟩
  · subst e
    have := h.blocks
    simp only [zip_cons_cons] at this
    revert this
    generalize E.blocks = Bs
    generalize E'.blocks = Bs'
    intro this
    cases this with
    | cons h1 h2 =>
      obtain ⟨g1, u1, u2, u3⟩ := h1.lin
      exact ⟨_, _, _, _, rfl, rfl, ⟨by rw [h1.rep, h1.rep'], ⟨g1, u1.over, u2, u3⟩, h1.bil⟩, h2⟩

variable {rng : Rng} {σ σ' : NetSt ℝ} {ein eout : Expr} {rin rout : Rep} {fuel b L : ℕ} {ch : Ch} {ws : List ℕ} {E : Emlp ℝ}

/-- **C137.** Let the statistics respect the group (the shifts are fixed, each scale is the same for all coordinates that the group mixes).  What
`Standardize(EMLP(…),stats)` computes for some parameters, the network alone computes for others; and if no scale is zero, what the network alone computes,
`Standardize(EMLP(…),stats)` computes. -/
theorem C137_standardize (hW : W.SingleOK g N) (hd : 2 ≤ W.d g) (hdN : W.d g ≤ N) (ok : GroupsOK W custom lie disc)
    (hsol : SolverOK W (gensOf W (stdAtoms W custom) lie disc) solve) (hσ : NetReach W g (gensOf W (stdAtoms W custom) lie disc) solve σ)
    (hrng : RngOK rng) (hin : RepArg W g N ein rin) (hout : RepArg W g N eout rout) (hch : ch.Widths W g N b L ws)
    (hbi : ein.dim W g ≤ b) (hbo : eout.dim W g ≤ b) (hbf : b < fuel) (hN : (2 * b) * (2 * b) ≤ N)
    (hE : Emlp.init W (gensOf W (stdAtoms W custom) lie disc) solve rng fuel rin rout g ch L σ = .ok (E, σ')) {muin sin muout sout : Stat}
    (hm : ∀ h, Generated (lie g) (disc g) h → muin.Invariant (ein.dim W g) (ein.den g (Interp.elem W custom g h)).1)
    (hs : ∀ h, Generated (lie g) (disc g) h → sin.Constant (ein.dim W g) (ein.den g (Interp.elem W custom g h)).1)
    (hm' : ∀ h, Generated (lie g) (disc g) h → muout.Invariant (eout.dim W g) (eout.den g (Interp.elem W custom g h)).1)
    (hs' : ∀ h, Generated (lie g) (disc g) h → sout.Constant (eout.dim W g) (eout.den g (Interp.elem W custom g h)).1)
    (h0 : sin.NonZero (ein.dim W g)) {ps : List (BlockParams ℝ)} {w : DMat ℝ} {β : List ℝ} (hp : E.Shaped ps w β) :
    (∃ ps₁ w₁ β₁, E.Shaped ps₁ w₁ β₁ ∧ ∀ (c : ℝ) (act : ℝ → ℝ) (x y : List ℝ), x.length = ein.dim W g →
      standardize ⟨NetClass.objaxEMLP.takesTraining, E.apply W c act ps w β⟩ [muin, sin, muout, sout] x = .ok y → E.apply W c act ps₁ w₁ β₁ x = .ok y) ∧
    (sout.NonZero (eout.dim W g) → ∃ ps₁ w₁ β₁, E.Shaped ps₁ w₁ β₁ ∧ ∀ (c : ℝ) (act : ℝ → ℝ) (x y : List ℝ), x.length = ein.dim W g →
      E.apply W c act ps w β x = .ok y → standardize ⟨NetClass.objaxEMLP.takesTraining, E.apply W c act ps₁ w₁ β₁⟩ [muin, sin, muout, sout] x = .ok y) := by
  obtain ⟨a, o, mids, ha, ho, hmid, P⟩ := Emlp.init_pair hW hd hdN hsol hsol hσ hσ rfl rfl hrng hin hout hch hbi hbo hbf hN hE hE
  have width := (C40_widths hW hd hdN ok hsol hσ hrng hin hout hch hbi hbo hbf hN hE).2.2.2.2.2.2
  obtain ⟨n, hn⟩ : ∃ n, n = ein.dim W g := ⟨_, rfl⟩
  obtain ⟨m, hmm⟩ : ∃ m, m = eout.dim W g := ⟨_, rfl⟩
  rw [← hn] at hm hs h0 ⊢
  rw [← hmm] at hm' hs' ⊢
  have za : a.size W = n := by rw [ha.2.1, hn]
  have zo : o.size W = m := by rw [ho.2.1, hmm]
  have fm := (hm 1 .one).1
  have fs := (hs 1 .one).1
  have fm' := (hm' 1 .one).1
  have fs' := (hs' 1 .one).1
  have A1 := fun c : ℝ => AE.shift (v := muin.vec n) (custom := custom) (lie := lie) (disc := disc) ha.1.wf (by rw [Stat.length_vec, za])
    (fun t ht => by rw [ha.2.2 ℝ _ (elem_dual ok ht)]; exact (hm t ht).2) c
  have A2 := fun φ : ℝ → ℝ => AE.scale (v := sin.vec n) (custom := custom) (lie := lie) (disc := disc) ha.1.wf (by rw [Stat.length_vec, za])
    (fun t ht => by rw [ha.2.2 ℝ _ (elem_dual ok ht), za]; exact (hs t ht).2) φ
  have B1 := fun c : ℝ => AE.shift (v := muout.vec m) (custom := custom) (lie := lie) (disc := disc) ho.1.wf (by rw [Stat.length_vec, zo])
    (fun t ht => by rw [ho.2.2 ℝ _ (elem_dual ok ht)]; exact (hm' t ht).2) c
  have B2 := fun φ : ℝ → ℝ => AE.scale (v := sout.vec m) (custom := custom) (lie := lie) (disc := disc) ho.1.wf (by rw [Stat.length_vec, zo])
    (fun t ht => by rw [ho.2.2 ℝ _ (elem_dual ok ht), zo]; exact (hs' t ht).2) φ
  have st : ∀ (f : List ℝ → Py (List ℝ)) (x : List ℝ), x.length = n → standardize ⟨NetClass.objaxEMLP.takesTraining, f⟩ [muin, sin, muout, sout] x =
      (f (zipWith (fun p q => p * q⁻¹) (zipWith (fun p q => p + (-1) * q) x (muin.vec n)) (sin.vec n)) >>= fun y => sout.op (· * ·) y >>= fun z => muout.op (· + ·) z) := by
    intro f x hx
    have e := normalize_eq fm fs hx
    show (muin.op (· - ·) x >>= fun u => sin.op (· / ·) u >>= fun v => f v >>= fun y => sout.op (· * ·) y >>= fun z => muout.op (· + ·) z) = _
    cases hu : muin.op (· - ·) x with
    | error e' => rw [hu] at e; cases e
    | ok u =>
      rw [hu] at e
      have e' : sin.op (· / ·) u = _ := e
      show (sin.op (· / ·) u >>= _) = _
      rw [e']
      rfl
  have wrap := fun {fi fo : List ℝ → List ℝ} (hfi : AE W g custom lie disc a a fi) (hfo : AE W g custom lie disc o o fo) =>
    P.kin.wrap ok ha.1 ha.1 ho.1 ho.1 (fun r hr => (hmid.2.1 r hr).1) hfi hfo hp
  constructor
  · obtain ⟨ps₁, w₁, β₁, k1, k2⟩ := wrap ((A1 (-1)).comp (A2 fun q => q⁻¹)) ((B2 id).comp (B1 1))
    refine ⟨ps₁, w₁, β₁, k1, fun c act x y hx hy => ?_⟩
    rw [st _ x hx] at hy
    cases hz : E.apply W c act ps w β (zipWith (fun p q => p * q⁻¹) (zipWith (fun p q => p + (-1) * q) x (muin.vec n)) (sin.vec n)) with
    | error e => rw [hz] at hy; cases hy
    | ok z =>
      rw [hz] at hy
      have hzl : z.length = m := by
        rw [hmm]
        exact width ps w β hp c act _ z (by rw [← hn]; simp [hx, Stat.length_vec]) hz
      have hy' : (sout.op (· * ·) z >>= fun z => muout.op (· + ·) z) = .ok y := hy
      rw [show (sout.op (· * ·) z >>= fun z => muout.op (· + ·) z) = _ from denormalize_eq fm' fs' hzl] at hy'
      rw [← Except.ok.inj hy']
      exact k2 c act x z (by rw [hx, za]) hz
  · intro h0'
    obtain ⟨ps₁, w₁, β₁, k1, k2⟩ := wrap ((A2 id).comp (A1 1)) ((B1 (-1)).comp (B2 fun q => q⁻¹))
    refine ⟨ps₁, w₁, β₁, k1, fun c act x y hx hy => ?_⟩
    have hyl : y.length = m := by rw [hmm]; exact width ps w β hp c act x y (by rw [hx, hn]) hy
    obtain ⟨u, hu⟩ : ∃ u, u = zipWith (fun p q => p * q⁻¹) (zipWith (fun p q => p + (-1) * q) x (muin.vec n)) (sin.vec n) := ⟨_, rfl⟩
    have hul : u.length = n := by rw [hu]; simp [hx, Stat.length_vec]
    have back : zipWith (fun p q => p + 1 * q) (zipWith (fun p q => p * id q) u (sin.vec n)) (muin.vec n) = x := by
      refine List.ext_getElem (by simp [hul, hx, Stat.length_vec]) fun i h1 h2 => ?_
      have hi : i < n := by rw [← hx]; exact h2
      have := h0 i hi
      rw [getD_eq_getElem _ _ (by rw [Stat.length_vec]; exact hi)] at this
      subst hu
      simp only [getElem_zipWith, id]
      field_simp
      ring
    have := k2 c act u y (by rw [hul, za]) (by rw [back]; exact hy)
    rw [st _ x hx, ← hu, this]
    show (sout.op (· * ·) _ >>= fun z => muout.op (· + ·) z) = _
    have dl : (zipWith (fun p q => p * q⁻¹) (zipWith (fun p q => p + (-1) * q) y (muout.vec m)) (sout.vec m)).length = m := by simp [hyl, Stat.length_vec]
    rw [show (sout.op (· * ·) _ >>= fun z => muout.op (· + ·) z) = _ from denormalize_eq fm' fs' dl]
    congr 1
    refine List.ext_getElem (by simp [hyl, Stat.length_vec]) fun i h1 h2 => ?_
    have hi : i < m := by rw [← hyl]; exact h2
    have := h0' i hi
    rw [getD_eq_getElem _ _ (by rw [Stat.length_vec]; exact hi)] at this
    simp only [getElem_zipWith]
    field_simp
    ring

end
/-- No shift and one number for all coordinates respect every group. -/
theorem numbers_respect {n : ℕ} {A : DMat ℝ} (hA : A.IsSq n) (r : ℝ) : (Stat.num 0).Invariant n A ∧ (Stat.num r).Constant n A := by
  refine ⟨⟨trivial, ?_⟩, trivial, fun i hi j hj _ => ?_⟩
  · show A.mulVec (replicate n 0) = replicate n 0
    rw [DMat.mulVec_replicate_zero, hA.1]
  · show (replicate n r).getD i 0 = (replicate n r).getD j 0
    rw [getD_eq_getElem _ _ (by simpa using hi), getD_eq_getElem _ _ (by simpa using hj), getElem_replicate, getElem_replicate]

/-- rotations about an axis, a network from a vector to a vector: inputs divided by 2, outputs multiplied by 3 -/
example : ∃ (solve : ℕ → LinOp ℝ → Py (DMat ℝ)) (rng : Rng) (E : Emlp ℝ) (σ' : NetSt ℝ),
    Emlp.init exW (gensOf exW (stdAtoms exW fun k g => trivialAtom _ _) rotLies fun _ => []) solve rng 7 Rep.V Rep.V 0 (.one (.int 6)) 2 ⟨freshSt, none, 0⟩ = .ok (E, σ') ∧
    (∀ ps w β, E.Shaped ps w β → ∀ (c : ℝ) (act : ℝ → ℝ) (x : List ℝ), x.length = 3 → ∃ y, E.apply exW c act ps w β x = .ok y) ∧
    ∀ ps w β, E.Shaped ps w β → ∃ ps₁ w₁ β₁, E.Shaped ps₁ w₁ β₁ ∧ ∀ (c : ℝ) (act : ℝ → ℝ) (x y : List ℝ), x.length = 3 →
      E.apply exW c act ps w β x = .ok y →
        standardize ⟨NetClass.objaxEMLP.takesTraining, E.apply exW c act ps₁ w₁ β₁⟩ [.num 0, .num 2, .num 0, .num 3] x = .ok y := by
  obtain ⟨sv, h1, h2⟩ := exists_solver ℝ
  obtain ⟨rng, hr⟩ := exists_rng
  have hW := exW_single 0 144 (by decide)
  have ha : RepArg exW 0 144 (.rep 0) Rep.V := ⟨⟨by decide, Or.inl rfl⟩, by decide, Or.inl rfl⟩
  have hch : Ch.Widths exW 0 144 6 2 (.one (.int 6)) (replicate 2 6) := .one _ _ (.int 6 (by decide) (by decide))
  have hσ : NetReach exW 0 (gensOf exW (stdAtoms exW fun k g => trivialAtom _ _) rotLies fun _ => []) (fun _ => sv) ⟨freshSt, none, 0⟩ := .start none 0 fun h e => by simp at e
  obtain ⟨E, σ', hE, ht⟩ := C40_total hW (by decide) (by decide) rot_groups (h1 _ _) (fun _ _ C _ => h2 C) hσ hr ha ha hch (.one 6 (by decide))
    (by decide) (by decide) (fuel := 7) (by decide) (by decide)
  obtain ⟨a, o, mids, k1, k2, -, P⟩ := Emlp.init_pair hW (by decide) (by decide) (h1 _ _) (h1 _ _) hσ hσ rfl rfl hr ha ha hch
    (by decide) (by decide) (by decide) (by decide) hE hE
  have sq : ∀ h, Generated (rotLies 0) [] h → (Expr.den 0 (Interp.elem exW (fun k g => trivialAtom _ _) 0 h) (.rep 0)).1.IsSq (Expr.dim exW 0 (.rep 0)) := fun h hh => by
    rw [← k1.2.2 ℝ _ (elem_dual rot_groups hh), ← k1.2.1]
    exact Rep.mat_sq (at_sized _) k1.1.wf
  have nz : ∀ r : ℝ, r ≠ 0 → ∀ n, (Stat.num r).NonZero n := fun r hr n i hi => by
    show (replicate n r).getD i 0 ≠ 0
    rw [getD_eq_getElem _ _ (by simpa using hi), getElem_replicate]
    exact hr
  exact ⟨_, rng, E, σ', hE, ht, fun ps w β hp => (C137_standardize hW (by decide) (by decide) rot_groups (h1 _ _) hσ hr ha ha hch (by decide) (by decide) (by decide) (by decide) hE
    (fun h hh => (numbers_respect (sq h hh) 0).1) (fun h hh => (numbers_respect (sq h hh) 2).2) (fun h hh => (numbers_respect (sq h hh) 0).1)
    (fun h hh => (numbers_respect (sq h hh) 3).2) (nz 2 (by norm_num) _) hp).2 (nz 3 (by norm_num) _)⟩

end Verif
