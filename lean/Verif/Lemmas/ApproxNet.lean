import Mathlib.Analysis.Calculus.ContDiff.RCLike
import Mathlib.Analysis.InnerProductSpace.Calculus
import Mathlib.Topology.Algebra.MetricSpace.Lipschitz
import Verif.Lemmas.ApproxLayer
import Verif.Lemmas.Smooth
import Verif.Spec.ApproxNet
import Verif.Lemmas.Args

/-! How far a network built from approximate bases is from being equivariant. -/
namespace Verif
open List DMat

/-! ### Code that does not use the solution cache -/

section
variable {W : World} {g : Gid} {N : ℕ} {gens : Gid → GenSet ℝ} {solve : ℕ → LinOp ℝ → Py (DMat ℝ)} {ε : ℝ} {rng : Rng}

/-- Code that neither reads nor changes the solution cache. -/
def NetM.Free {α : Type} (m : NetM ℝ α) : Prop := ∀ σ s, m { σ with solve := s } = (m σ).map fun p => (p.1, { p.2 with solve := s })

theorem NetM.Free.pure {α : Type} (a : α) : NetM.Free (Pure.pure a : NetM ℝ α) := fun _ _ => rfl

theorem NetM.Free.draw : NetM.Free (NetM.draw : NetM ℝ ℕ) := fun _ _ => rfl

theorem NetM.Free.rep {α : Type} (m : RepM α) : NetM.Free (NetM.rep m : NetM ℝ α) := by
  intro σ s
  unfold NetM.rep
  show (m σ.sg >>= _) = _
  cases m σ.sg <;> rfl

theorem NetM.Free.bind {α β : Type} {m : NetM ℝ α} {f : α → NetM ℝ β} (hm : NetM.Free m) (hf : ∀ a, NetM.Free (f a)) : NetM.Free (m >>= f) := by
  intro σ s
  show (m { σ with solve := s } >>= fun p => f p.1 p.2) = (m σ >>= fun p => f p.1 p.2).map _
  rw [hm]
  cases m σ with
  | error e => rfl
  | ok p => exact hf p.1 p.2 s

theorem NetM.Free.mapM {α β : Type} {f : α → NetM ℝ β} (hf : ∀ a, NetM.Free (f a)) (l : List α) : NetM.Free (l.mapM f) := by
  induction l with
  | nil => rw [mapM_nil]; exact .pure _
  | cons a t ih => rw [mapM_cons]; exact (hf a).bind fun _ => ih.bind fun _ => .pure _

theorem NetM.Meets.near {α : Type} {m : NetM ℝ α} {P : α → Prop} (hm : NetM.Meets W g gens m P) (hf : NetM.Free m) : NetM.MeetsN W g gens ε m P := by
  intro σ hσ a σ' e
  have h1 := hf σ freshSt
  rw [e] at h1
  obtain ⟨h2, h3⟩ := hm { σ with solve := freshSt } ⟨fun e he => by simp [freshSt] at he, hσ.sg⟩ _ _ h1
  have h4 := hf σ σ.solve
  change m σ = _ at h4
  rw [e] at h4
  have h5 : σ' = { σ' with solve := σ.solve } := (Prod.mk.inj (Except.ok.inj h4)).2
  refine ⟨⟨?_, h2.sg⟩, h3⟩
  rw [h5]; exact hσ.cache

theorem ChItem.parse_free (fuel : ℕ) (c : ChItem) : NetM.Free (ChItem.parse W rng fuel g c : NetM ℝ Rep) := by
  cases c with
  | int n => simp only [ChItem.parse]; exact NetM.Free.draw.bind fun _ => .rep _
  | rep r => simp only [ChItem.parse]; exact .rep _

theorem parseCh_free (fuel L : ℕ) (ch : Ch) : NetM.Free (parseCh W rng fuel g L ch : NetM ℝ (List Rep)) := by
  cases ch with
  | one c => exact (ChItem.parse_free fuel c).bind fun _ => .pure _
  | list l => exact .mapM (ChItem.parse_free fuel) l

theorem BilinearL.init_free (a b : Rep) : NetM.Free (BilinearL.init W rng a b : NetM ℝ BilinearL) := NetM.Free.draw.bind fun _ => .rep _

theorem NetM.MeetsN.mapM {α β : Type} {f : α → NetM ℝ β} {P : α → β → Prop} (l : List α)
    (h : ∀ a ∈ l, NetM.MeetsN W g gens ε (f a) (P a)) : NetM.MeetsN W g gens ε (l.mapM f) (Forall₂ P l) := by
  induction l with
  | nil => rw [mapM_nil]; exact NetM.MeetsN.pure .nil
  | cons a t ih =>
    rw [mapM_cons]
    exact NetM.MeetsN.bind (h a (by simp)) fun b hb => NetM.MeetsN.bind (ih fun x hx => h x (by simp [hx])) fun bs hbs =>
      NetM.MeetsN.pure (.cons hb hbs)

/-! ### What building yields -/

/-- What a block knows after it is built, when the solver is approximate. -/
structure Block.Near (W : World) (g : Gid) (N : ℕ) (gens : Gid → GenSet ℝ) (ε : ℝ) (a r : Rep) (B : Block ℝ) : Prop where
  rep : B.rep = r
  sum : ∀ k, r = .key k → k.isPerm W = false
  lin : ∃ g1, GatedOf W g N r g1 ∧ B.lin.Near W gens ε a g1
  bil : ∀ I : Interp ℝ, I.Dual W → ∀ (c : ℝ) (params : List ℝ), B.bil.dims ≤ params.length →
    Commutes (r.size W + r.gates W) (r.size W + r.gates W) (B.bil.applyVec W c params)
      (DMat.bdiag2 (r.mat I) (DMat.one (r.gates W))) (DMat.bdiag2 (r.mat I) (DMat.one (r.gates W)))

/-- What a network knows after it is built, when the solver is approximate. -/
structure Emlp.Near (W : World) (g : Gid) (N : ℕ) (gens : Gid → GenSet ℝ) (ε : ℝ) (a : Rep) (mids : List Rep) (o : Rep) (E : Emlp ℝ) : Prop where
  blocks : Forall₂ (fun p B => Block.Near W g N gens ε p.1 p.2 B) ((a :: mids).zip mids) E.blocks
  last : E.last.Near W gens ε (mids.getLastD a) o
  hidden : E.hidden = mids

section
variable (hW : W.SingleOK g N) (hs : GenSet.Sized W gens) (hsol : SolverNear W gens ε solve) (hrng : RngOK rng)
include hW hs hsol hrng

theorem Block.init_near {a r : Rep} (ha : a.Over W g N) (hr : r.Over W g N)
    {b : ℕ} (hra : a.size W + a.gates W ≤ b) (hrb : r.size W + r.gates W ≤ b) (hN : b * b ≤ N) :
    NetM.MeetsN W g gens ε (Block.init W gens solve rng a r) (Block.Near W g N gens ε a r) := by
  unfold Block.init
  have hg := (gated_meets (gens := gens) hW hr).near (ε := ε) (.rep _)
  refine NetM.MeetsN.bind hg fun g1 h1 => ?_
  refine NetM.MeetsN.bind (LinearL.init_near hW hs hsol ha h1.over (le_trans (Nat.mul_le_mul (h1.size ▸ hrb) (by omega)) hN)) fun lin hl => ?_
  refine NetM.MeetsN.bind hg fun g2 h2 => ?_
  refine NetM.MeetsN.bind hg fun g3 h3 => ?_
  refine NetM.MeetsN.bind ((bilinear_meets hW hrng h2 h3 (le_trans (Nat.mul_le_mul hrb hrb) hN)).near (BilinearL.init_free _ _)) fun bil hb => ?_
  refine NetM.MeetsN.pure ⟨rfl, fun k hk => ?_, ⟨g1, h1, hl⟩, hb.2.1⟩
  obtain ⟨s, hs⟩ := hb.1
  by_contra hp
  have := h2.key k hk (by simpa using hp)
  rw [hs] at this
  cases this

theorem Emlp.build_near {a o : Rep} {mids : List Rep} {b : ℕ} (hov : ∀ r ∈ a :: o :: mids, r.Over W g N ∧ r.size W + r.gates W ≤ b) (hN : b * b ≤ N) :
    NetM.MeetsN W g gens ε (Emlp.build W gens solve rng a mids o) (Emlp.Near W g N gens ε a mids o) := by
  unfold Emlp.build
  refine NetM.MeetsN.bind (NetM.MeetsN.mapM (P := fun p B => Block.Near W g N gens ε p.1 p.2 B) _ fun p hp => ?_) fun blocks hb => ?_
  · have h := chain_mem hov hp
    exact Block.init_near hW hs hsol hrng h.1.1 h.2.1.1 h.1.2 h.2.1.2 hN
  · have hl := hov (mids.getLastD a) (by rcases mem_cons.1 (mem_getLastD mids a) with h | h; exacts [mem_cons.2 (.inl h), mem_cons_of_mem _ (mem_cons_of_mem _ h)])
    have ho := hov o (by simp)
    rw [getLastD_cons]
    refine NetM.MeetsN.bind (LinearL.init_near hW hs hsol hl.1 ho.1 (le_trans (Nat.mul_le_mul (by omega) (by omega)) hN)) fun last hlast => ?_
    exact NetM.MeetsN.pure ⟨hb, hlast, rfl⟩

theorem Emlp.init_near {b fuel L : ℕ} {ch : Ch} {ws : List ℕ} {ein eout : Expr} {rin rout : Rep} (hd : 2 ≤ W.d g) (hdN : W.d g ≤ N) (hbN : b ≤ N)
    (hbf : b < fuel) (hch : ch.Widths W g N b L ws) (hin : RepArg W g N ein rin) (hout : RepArg W g N eout rout) (hbi : ein.dim W g ≤ b)
    (hbo : eout.dim W g ≤ b) (hN : (2 * b) * (2 * b) ≤ N) :
    NetM.MeetsN W g gens ε (Emlp.init W gens solve rng fuel rin rout g ch L) fun E =>
      ∃ a o mids, ArgOf W g N ein a ∧ ArgOf W g N eout o ∧ MidsOf W g N b ch ws mids ∧ E.Near W g N gens ε a mids o := by
  rw [Emlp.init_eq]
  refine NetM.MeetsN.bind ((hin.meets (gens := gens) hW).near (.rep _)) fun a ha => NetM.MeetsN.bind ((hout.meets (gens := gens) hW).near (.rep _)) fun o ho =>
    NetM.MeetsN.bind ((parseCh_meets (gens := gens) hW hd hdN hrng hbN hbf hch).near (parseCh_free _ _ _)) fun m hm => ?_
  intro σ hσ E σ' hE
  have hov : ∀ r ∈ a :: o :: m, r.Over W g N ∧ r.size W + r.gates W ≤ 2 * b := by
    intro r hr
    simp only [mem_cons] at hr
    have h1 := Rep.gates_le hW ha.1
    have h2 := Rep.gates_le hW ho.1
    rcases hr with rfl | rfl | hr
    · exact ⟨ha.1, by rw [ha.2.1] at *; omega⟩
    · exact ⟨ho.1, by rw [ho.2.1] at *; omega⟩
    · exact hm.2.1 r hr
  obtain ⟨h1, h2⟩ := Emlp.build_near hW hs hsol hrng hov hN σ hσ E σ' hE
  exact ⟨h1, a, o, m, ha, ho, hm, h2⟩

end

/-! ### Raising -/

/-- A block whose representation is not a sum in canonical order raises. -/
theorem Block.Near.raises {a r : Rep} {B : Block ℝ} (h : B.Near W g N gens ε a r) (hr : r.Over W g N) (hc : ¬ r.CanonicalSum W) (c : ℝ) (act : ℝ → ℝ)
    (p : BlockParams ℝ) (x : List ℝ) : ∃ e, B.apply W c act p x = .error e := by
  have hg : ∀ v : List ℝ, ∃ e, gatedNonlinearity W act r v = .error e := by
    intro v
    rcases hr.isSumOrKey with ⟨k, rfl⟩ | ⟨s, rfl⟩
    · have hkey := hr.key (k.base W) (by simp [Rep.keys])
      cases k with
      | scalar => exact absurd (h.sum _ rfl) (by simp [Key.isPerm])
      | fac f =>
        cases f with
        | atom a => exact ⟨_, (C35_single act v).1 a⟩
        | prod p => exact (C35_single act v).2 p (h.sum _ rfl)
      | dprod d => exact absurd hkey.2 (by simp [Key.base])
    · refine ⟨.assertion, ?_⟩
      unfold gatedNonlinearity
      rw [C34_not_canonical hr.wf fun e => hc ⟨s, rfl, e⟩]
      rfl
  unfold Block.apply
  rw [h.rep]
  cases B.lin.apply p.w p.b x with
  | error e => exact ⟨e, rfl⟩
  | ok l =>
    simp only [Bind.bind, Except.bind]
    cases B.bil.applyVec W c p.bw l with
    | error e => exact ⟨e, rfl⟩
    | ok b => exact hg _

theorem blocks_near_raise (c : ℝ) (act : ℝ → ℝ) (mids : List Rep) :
    ∀ (a : Rep) (Bs : List (Block ℝ)) (ps : List (BlockParams ℝ)) (x : List ℝ), (∀ r ∈ mids, r.Over W g N) →
      (∃ r ∈ mids, ¬ r.CanonicalSum W) → Forall₂ (fun p B => Block.Near W g N gens ε p.1 p.2 B) ((a :: mids).zip mids) Bs →
      ps.length = Bs.length → ∃ e, applyBlocks W c act (Bs.zip ps) x = .error e := by
  induction mids with
  | nil => intro a Bs ps x _ ⟨r, hr, _⟩; cases hr
  | cons r t ih =>
    intro a Bs ps x hm hex h1 h2
    rw [zip_cons_cons] at h1
    obtain ⟨B, Bs', hB, hBs, rfl⟩ := forall₂_cons_left_iff.1 h1
    cases ps with
    | nil => simp at h2
    | cons p ps' =>
      rw [zip_cons_cons]
      simp only [applyBlocks]
      by_cases hc : r.CanonicalSum W
      · cases hy : B.apply W c act p x with
        | error e => exact ⟨e, rfl⟩
        | ok y =>
          refine ih r Bs' ps' y (fun q hq => hm q (by simp [hq])) ?_ hBs (by simpa using h2)
          obtain ⟨q, hq, hq'⟩ := hex
          rcases mem_cons.1 hq with rfl | h
          · exact absurd hc hq'
          · exact ⟨q, h, hq'⟩
      · obtain ⟨e, he⟩ := hB.raises (hm r (by simp)) hc c act p x
        exact ⟨e, by rw [he]; rfl⟩

theorem Emlp.Near.raises {a o : Rep} {mids : List Rep} {E : Emlp ℝ} {ps : List (BlockParams ℝ)} {w : DMat ℝ} {β : List ℝ}
    (h : E.Near W g N gens ε a mids o) (hm : ∀ r ∈ mids, r.Over W g N) (hc : ∃ r ∈ mids, ¬ r.CanonicalSum W)
    (c : ℝ) (act : ℝ → ℝ) (hp : ps.length = E.blocks.length) (x : List ℝ) : ∃ e, E.apply W c act ps w β x = .error e := by
  obtain ⟨e, he⟩ := blocks_near_raise c act mids a E.blocks ps x hm hc h.blocks hp
  exact ⟨e, by unfold Emlp.apply; rw [he]; rfl⟩

end

/-! ### Distances -/

section
variable {n : ℕ} {x y z : List ℝ}

theorem nrm_nonneg (x : List ℝ) : 0 ≤ nrm x := Real.sqrt_nonneg _

theorem dst_nonneg (x y : List ℝ) : 0 ≤ dst x y := Real.sqrt_nonneg _

theorem dst_triangle (hx : x.length = n) (hy : y.length = n) : dst x z ≤ dst x y + dst y z := by
  rw [← toEu_dst hx, ← toEu_dst hx, ← toEu_dst hy]
  exact norm_sub_le_norm_sub_add_norm_sub _ _ _

theorem dst_comm (hx : x.length = n) (hy : y.length = n) : dst x y = dst y x := by
  rw [← toEu_dst hx, ← toEu_dst hy, norm_sub_rev]

theorem nrm_add (hx : x.length = n) (hy : y.length = n) : nrm (zipWith (· + ·) x y) ≤ nrm x + nrm y := by
  rw [← toEu_nrm (n := n) (by simp [hx, hy]), ← toEu_nrm hx, ← toEu_nrm hy, toEu_add hx hy]
  exact norm_add_le _ _

theorem dst_add (hx : x.length = n) (hy : y.length = n) (hz : z.length = n) : dst (zipWith (· + ·) x z) (zipWith (· + ·) y z) = dst x y := by
  rw [← toEu_dst (n := n) (by simp [hx, hz]), ← toEu_dst hx, toEu_add hx hz, toEu_add hy hz, add_sub_add_right_eq_sub]

theorem dst_zero {k : ℕ} : dst x (replicate k 0) = nrm x := by
  unfold dst nrm dist2 nrm2
  congr 1
  refine Finset.sum_congr rfl fun i _ => ?_
  have : (replicate k (0 : ℝ)).getD i 0 = 0 := by
    rw [List.getD_eq_getElem?_getD, getElem?_replicate]
    split <;> rfl
  rw [this, sub_zero]

theorem mulVec_dst {M K : DMat ℝ} (hr : M.rows = K.rows) (hc : M.cols = K.cols) {z : List ℝ} (hz : z.length = M.cols) :
    dst (M.mulVec z) (K.mulVec z) ≤ dst M.flat K.flat * nrm z := by
  unfold dst nrm
  rw [← Real.sqrt_mul' _ (nrm2_nonneg z)]
  exact Real.sqrt_le_sqrt (mulVec_dist2 hr hc hz)

theorem mulVec_nrm {M : DMat ℝ} {z : List ℝ} (hz : z.length = M.cols) : nrm (M.mulVec z) ≤ nrm M.flat * nrm z := by
  have h := mulVec_dst (M := M) (K := DMat.zero M.rows M.cols) rfl rfl hz
  have e0 : ∀ i j, (DMat.zero M.rows M.cols : DMat ℝ).e i j = 0 := fun i j => by simp [DMat.zero, DMat.of]
  have e1 : (DMat.zero M.rows M.cols : DMat ℝ).mulVec z = replicate M.rows 0 := by
    refine vec_ext (by simp) fun i hi => ?_
    rw [getD_mulVec (by simpa using hi)]
    simp [e0]
  have e2 : (DMat.zero M.rows M.cols : DMat ℝ).flat = replicate (M.rows * M.cols) 0 := by
    refine vec_ext (by rw [length_flat, length_replicate]; rfl) fun i hi => ?_
    rw [flat_getD]
    simp [e0]
  rwa [e1, e2, dst_zero, dst_zero] at h

theorem mulVec_lipschitz {M : DMat ℝ} {y z : List ℝ} (hy : y.length = M.cols) (hz : z.length = M.cols) :
    dst (M.mulVec y) (M.mulVec z) ≤ nrm M.flat * dst y z := by
  have e : ∀ u v : List ℝ, u.length = v.length → dst u v = nrm (zipWith (· - ·) u v) := by
    intro u v h
    unfold dst nrm dist2 nrm2
    rw [length_zipWith, h, min_self]
    congr 1
    refine Finset.sum_congr rfl fun i hi => ?_
    have hi' := Finset.mem_range.1 hi
    rw [getD_eq_getElem _ _ (by omega), getD_eq_getElem _ _ hi', getD_eq_getElem _ _ (by simp; omega), getElem_zipWith]
  rw [e _ _ (by simp), e _ _ (by rw [hy, hz])]
  have : zipWith (· - ·) (M.mulVec y) (M.mulVec z) = M.mulVec (zipWith (· - ·) y z) := by
    refine vec_ext (by simp) fun i hi => ?_
    simp only [length_zipWith, length_mulVec, min_self] at hi
    rw [getD_mulVec hi, getD_eq_getElem _ _ (by simpa using hi), getElem_zipWith, ← getD_eq_getElem (d := 0), ← getD_eq_getElem (d := 0), getD_mulVec hi, getD_mulVec hi,
      ← Finset.sum_sub_distrib]
    refine Finset.sum_congr rfl fun j hj => ?_
    have hj' := Finset.mem_range.1 hj
    rw [getD_eq_getElem _ _ (by omega), getD_eq_getElem _ _ (by omega), getD_eq_getElem _ _ (by simp; omega), getElem_zipWith, mul_sub]
  rw [this]
  exact mulVec_nrm (by simp [hy, hz])

theorem abs_getD_le (hx : x.length = n) (i : Fin n) : |x.getD i 0| ≤ nrm x := by
  rw [← toEu_nrm hx]
  exact PiLp.norm_apply_le (toEu n x) i

end

/-! ### Smooth functions are Lipschitz on balls -/

section
variable {T : Type*} [NormedAddCommGroup T] [NormedSpace ℝ T] [FiniteDimensional ℝ T]

theorem SmoothVec.lipschitz {n : ℕ} {y : T → List ℝ} (hy : SmoothVec 1 n y) (R : ℝ) :
    ∃ L B : ℝ, 0 ≤ L ∧ 0 ≤ B ∧ ∀ t, ‖t‖ ≤ R → nrm (y t) ≤ B ∧ ∀ t', ‖t'‖ ≤ R → dst (y t') (y t) ≤ L * ‖t' - t‖ := by
  have hF : ContDiff ℝ 1 fun t => toEu n (y t) := by
    rw [contDiff_euclidean]
    exact fun i => hy.2 i
  have hp : ProperSpace T := FiniteDimensional.proper ℝ T
  obtain ⟨K, hK⟩ := (hF.locallyLipschitz.locallyLipschitzOn (s := Metric.closedBall (0 : T) R)).exists_lipschitzOnWith_of_compact (isCompact_closedBall 0 R)
  obtain ⟨B, hB⟩ := (isCompact_closedBall (0 : T) R).exists_bound_of_continuousOn hF.continuous.continuousOn
  refine ⟨K, max B 0, K.2, le_max_right _ _, fun t ht => ⟨?_, fun t' ht' => ?_⟩⟩
  · rw [← toEu_nrm (hy.1 t)]
    exact (hB t (by simpa using ht)).trans (le_max_left _ _)
  · have := hK.dist_le_mul t' (by simpa using ht') t (by simpa using ht)
    rwa [dist_eq_norm, dist_eq_norm, toEu_dst (hy.1 t')] at this

end

theorem smooth_ofFn {T : Type*} [NormedAddCommGroup T] [NormedSpace ℝ T] {k : WithTop ℕ∞} {n : ℕ} {f : T → Fin n → ℝ} (h : ∀ i, ContDiff ℝ k fun t => f t i) :
    SmoothVec k n fun t => List.ofFn (f t) := by
  refine ⟨fun v => by simp, fun i => ?_⟩
  by_cases hi : i < n
  · simpa [List.getD, hi] using h ⟨i, hi⟩
  · simpa [List.getD, hi] using contDiff_const

/-- What a block computes after its linear layer. -/
def postLinear (W : World) (c : ℝ) (act : ℝ → ℝ) (bil : BilinearL) (r : Rep) (bw l : List ℝ) : Py (List ℝ) :=
  bil.applyVec W c bw l >>= fun b => gatedNonlinearity W act r (zipWith (· + ·) b l)

theorem Block.apply_eq (W : World) (c : ℝ) (act : ℝ → ℝ) (B : Block ℝ) (p : BlockParams ℝ) (x : List ℝ) :
    B.apply W c act p x = B.lin.apply p.w p.b x >>= postLinear W c act B.bil B.rep p.bw := rfl

theorem postLinear_lipschitz (W : World) (c : ℝ) {act : ℝ → ℝ} (hact : ContDiff ℝ 1 act) (bil : BilinearL) (r : Rep) (m : ℕ) (P R : ℝ) :
    ∃ L B : ℝ, 0 ≤ L ∧ 0 ≤ B ∧ ∀ bw l : List ℝ, bw.length = bil.dims → l.length = m → nrm bw ≤ P → nrm l ≤ R → ∀ y, postLinear W c act bil r bw l = .ok y →
      nrm y ≤ B ∧ ∀ l' y', l'.length = m → nrm l' ≤ R → postLinear W c act bil r bw l' = .ok y' → dst y' y ≤ L * dst l' l := by
  obtain ⟨nb, hnb⟩ : ∃ nb, nb = bil.dims := ⟨_, rfl⟩
  have h1 : SmoothVec 1 nb fun t : (Fin nb → ℝ) × (Fin m → ℝ) => List.ofFn t.1 := smooth_ofFn fun i => by fun_prop
  have h2 : SmoothVec 1 m fun t : (Fin nb → ℝ) × (Fin m → ℝ) => List.ofFn t.2 := smooth_ofFn fun i => by fun_prop
  have hpost : SmoothCall 1 fun t : (Fin nb → ℝ) × (Fin m → ℝ) => postLinear W c act bil r (List.ofFn t.1) (List.ofFn t.2) := by
    refine SmoothCall.bind (F := fun t b => gatedNonlinearity W act r (zipWith (· + ·) b (List.ofFn t.2))) (SmoothCall.bilinear W c bil h1 h2) fun m' bi hbi => ?_
    exact SmoothCall.gated W hact r (hbi.zipWith h2 fun h1 h2 => h1.add h2)
  have hof : ∀ (k : ℕ) (v : List ℝ), v.length = k → (List.ofFn fun i : Fin k => v.getD i 0) = v := by
    intro k v hv
    subst hv
    refine ext_getElem (by simp) fun i h1 h2 => ?_
    simp
  rcases hpost with ⟨n, y, hy, hp⟩ | ⟨e, he⟩
  · obtain ⟨L, B, hL, hB, h⟩ := hy.lipschitz (max P R)
    refine ⟨L, B, hL, hB, fun bw l hbw hl nb' nl y1 hy1 => ?_⟩
    have hn : ∀ l' : List ℝ, l'.length = m → nrm l' ≤ R → ‖((fun i : Fin nb => bw.getD i 0, fun i : Fin m => l'.getD i 0) : (Fin nb → ℝ) × (Fin m → ℝ))‖ ≤ max P R := by
      intro l' hl' hn'
      rw [Prod.norm_def]
      refine max_le_max ?_ ?_
      · exact (pi_norm_le_iff_of_nonneg (nrm_nonneg bw)).2 (fun i => abs_getD_le (by rw [hbw, hnb]) i) |>.trans nb'
      · exact (pi_norm_le_iff_of_nonneg (nrm_nonneg l')).2 (fun i => abs_getD_le hl' i) |>.trans hn'
    have hev : ∀ l' y', l'.length = m → postLinear W c act bil r bw l' = .ok y' → y' = y (fun i => bw.getD i 0, fun i => l'.getD i 0) := by
      intro l' y' hl' hy'
      have := hp (fun i => bw.getD i 0, fun i => l'.getD i 0)
      beta_reduce at this
      rw [hof nb bw (by rw [hbw, hnb]), hof m l' hl', hy'] at this
      exact Except.ok.inj this
    rw [hev l y1 hl hy1]
    refine ⟨(h _ (hn l hl nl)).1, fun l' y' hl' nl' hy' => ?_⟩
    rw [hev l' y' hl' hy']
    refine ((h _ (hn l hl nl)).2 _ (hn l' hl' nl')).trans (mul_le_mul_of_nonneg_left ?_ hL)
    rw [Prod.norm_def, Prod.fst_sub, Prod.snd_sub, sub_self, norm_zero]
    refine max_le (dst_nonneg _ _) ((pi_norm_le_iff_of_nonneg (dst_nonneg _ _)).2 fun i => ?_)
    rw [← toEu_dst (n := m) hl']
    exact PiLp.norm_apply_le (toEu m l' - toEu m l) i
  · refine ⟨0, 0, le_rfl, le_rfl, fun bw l hbw hl _ _ y1 hy1 => ?_⟩
    have := he (fun i => bw.getD i 0, fun i => l.getD i 0)
    beta_reduce at this
    rw [hof nb bw (by rw [hbw, hnb]), hof m l hl, hy1] at this
    cases this

/-! ### One block -/

section
variable {W : World} {g : Gid} {N : ℕ}

theorem LinearL.Near.bounds {gens : Gid → GenSet ℝ} {ε : ℝ} {a b : Rep} {L : LinearL ℝ} (h : L.Near W gens ε a b) {w : DMat ℝ} {β z z' : List ℝ}
    (hw : w.rows = b.size W) (hw' : w.cols = a.size W) (hβ : β.length = b.size W) (hz : z.length = a.size W) (hz' : z'.length = a.size W) :
    ∃ y y', L.apply w β z = .ok y ∧ L.apply w β z' = .ok y' ∧ y.length = b.size W ∧ y'.length = b.size W ∧
      nrm y ≤ nrm w.flat * nrm z + nrm β ∧ dst y' y ≤ nrm w.flat * dst z' z := by
  obtain ⟨r, hr, hsz, -, Q, hQ, hPw⟩ := h.w
  obtain ⟨Qb, hQb, hPb⟩ := h.b
  have hPw1 : L.Pw.sem.rows = r.size W := by rw [hPw]; exact hQ.rows
  have hPb1 : L.Pb.sem.rows = b.size W := by rw [hPb]; exact hQb.rows
  obtain ⟨M, hM⟩ : ∃ M, M = DMat.unflat w.rows w.cols (L.Pw.sem.mulVec w.flat) := ⟨_, rfl⟩
  have hM1 : M.rows = b.size W := by rw [hM]; exact hw
  have hM2 : M.cols = a.size W := by rw [hM]; exact hw'
  have hfl : M.flat = L.Pw.sem.mulVec w.flat := by
    rw [hM]; exact DMat.unflat_flat (by rw [DMat.length_mulVec, hPw1, hsz, hw, hw'])
  obtain ⟨c, hc⟩ : ∃ c, c = L.Pb.sem.mulVec β := ⟨_, rfl⟩
  have hcl : c.length = b.size W := by rw [hc, length_mulVec, hPb1]
  have hwl : w.flat.length = r.size W := by rw [length_flat, hw, hw', hsz]
  have hMn : nrm M.flat ≤ nrm w.flat := by rw [hfl]; exact bessel_nrm hQ hPw hwl
  have hcn : nrm c ≤ nrm β := by rw [hc]; exact bessel_nrm hQb hPb hβ
  have ev : ∀ z : List ℝ, z.length = a.size W → L.apply w β z = .ok (zipWith (· + ·) (M.mulVec z) c) := by
    intro z hz
    unfold LinearL.apply
    rw [if_pos ⟨by rw [hw, h.nout], by rw [hw', h.nin], by rw [hβ, h.nout], by rw [hz, h.nin]⟩, hM, hc]
  refine ⟨_, _, ev z hz, ev z' hz', by simp [hM1, hcl], by simp [hM1, hcl], ?_, ?_⟩
  · refine (nrm_add (n := b.size W) (by simp [hM1]) hcl).trans (add_le_add ((mulVec_nrm (by rw [hz, hM2])).trans ?_) hcn)
    exact mul_le_mul_of_nonneg_right hMn (nrm_nonneg z)
  · rw [dst_add (n := b.size W) (by simp [hM1]) (by simp [hM1]) hcl]
    exact (mulVec_lipschitz (by rw [hz', hM2]) (by rw [hz, hM2])).trans (mul_le_mul_of_nonneg_right hMn (dst_nonneg _ _))

theorem unit_nrm {n : ℕ} {A : DMat ℝ} (hA : A.Unit n) {x : List ℝ} (hx : x.length = n) : nrm (A.mulVec x) = nrm x := by
  rw [← toEu_nrm (n := n) (by rw [length_mulVec, hA.sq.1]), ← toEu_nrm hx]
  exact unit_norm hA hx

/-- `I` acts orthogonally and moves approximately invariant vectors by at most `δ` times their length. -/
structure MovesLittle (W : World) (gens : Gid → GenSet ℝ) (ε δ : ℝ) (I : Interp ℝ) : Prop where
  dual : I.Dual W
  unit : I.Unit W
  perm : ∀ h, W.isPerm h = true → IsPermMat (W.asize 0 h) (I.vec 0 (some h)).sem
  nonneg : 0 ≤ δ
  fix : ∀ r : Rep, r.WF W → ∀ v : List ℝ, v.length = r.size W → r.NearFixed W gens ε v → dst ((r.mat I).mulVec v) v ≤ δ * nrm v

theorem LinearL.Near.moves {gens : Gid → GenSet ℝ} {ε δ P R : ℝ} {a b : Rep} {L : LinearL ℝ} (h : L.Near W gens ε a b) {I : Interp ℝ} (hI : MovesLittle W gens ε δ I)
    (ha : a.WF W) (hb : b.WF W) (hP : 0 ≤ P) {w : DMat ℝ} {β x x' : List ℝ} (hw : w.rows = b.size W) (hw' : w.cols = a.size W)
    (hβ : β.length = b.size W) (hx : x.length = a.size W) (hx' : x'.length = a.size W) (nw : nrm w.flat ≤ P) (nb : nrm β ≤ P) (nx : nrm x ≤ R) (nx' : nrm x' ≤ R) :
    ∃ l l', L.apply w β x = .ok l ∧ L.apply w β x' = .ok l' ∧ l.length = b.size W ∧ l'.length = b.size W ∧ nrm l ≤ P * R + P ∧ nrm l' ≤ P * R + P ∧
      dst l' ((b.mat I).mulVec l) ≤ (P + (P * R + P)) * (dst x' ((a.mat I).mulVec x) + δ) := by
  have sa := Rep.mat_sq hI.dual.toSized ha
  have hρ : ((a.mat I).mulVec x).length = a.size W := by rw [length_mulVec, sa.1]
  have hR : 0 ≤ R := (nrm_nonneg x).trans nx
  have up : ∀ z, nrm z ≤ R → nrm w.flat * nrm z + nrm β ≤ P * R + P := fun z hz => add_le_add (mul_le_mul nw hz (nrm_nonneg _) hP) nb
  obtain ⟨l, l'', e1, e2, l1, l2, d1⟩ := h.commutes hb hI.dual hI.unit ha hI.nonneg hI.fix hw hw' hβ hx
  obtain ⟨l3, l4, e3, e4, l5, l6, b1, d2⟩ := h.bounds hw hw' hβ hρ hx'
  obtain ⟨l7, l8, e7, e8, -, -, b2, -⟩ := h.bounds hw hw' hβ hx hx
  obtain ⟨l9, l10, e9, e10, -, -, b3, -⟩ := h.bounds hw hw' hβ hx' hx
  have : l3 = l'' := Except.ok.inj (e3.symm.trans e2)
  subst this
  have : l7 = l := Except.ok.inj (e7.symm.trans e1)
  subst this
  have : l9 = l4 := Except.ok.inj (e9.symm.trans e4)
  subst this
  refine ⟨l7, l9, e1, e4, l1, l6, b2.trans (up _ nx), b3.trans (up _ nx'), ?_⟩
  refine (dst_triangle l6 l5).trans ?_
  have h1 := mul_le_mul_of_nonneg_right nw (dst_nonneg x' ((a.mat I).mulVec x))
  have h2 := mul_le_mul_of_nonneg_left (up x nx) hI.nonneg
  have h3 := dst_nonneg x' ((a.mat I).mulVec x)
  have h4 := hI.nonneg
  have h5 := mul_nonneg hP hR
  nlinarith [mul_nonneg hP h4, mul_nonneg hP h3, mul_nonneg h5 h3]

/-- The constants of a block depend only on its representation, its bilinear layer and the bounds. -/
theorem block_moves (hW : W.SingleOK g N) (c : ℝ) {act : ℝ → ℝ} (hact : ContDiff ℝ 1 act) (r : Rep) (bil : BilinearL) (hr : r.Over W g N) (hc : r.CanonicalSum W)
    {P : ℝ} (hP : 0 ≤ P) (R : ℝ) : ∃ K R' : ℝ, 0 ≤ K ∧ 0 ≤ R' ∧ ∀ {gens : Gid → GenSet ℝ} {ε δ : ℝ} {a : Rep} {B : Block ℝ} {p : BlockParams ℝ} {I : Interp ℝ} {x x' : List ℝ},
      B.Near W g N gens ε a r → B.bil = bil → a.Over W g N → p.Shaped B → p.Within P → MovesLittle W gens ε δ I → x.length = a.size W → x'.length = a.size W →
      nrm x ≤ R → nrm x' ≤ R → ∃ y y', B.apply W c act p x = .ok y ∧ B.apply W c act p x' = .ok y' ∧ y.length = r.size W ∧ y'.length = r.size W ∧
        nrm y ≤ R' ∧ nrm y' ≤ R' ∧ dst y' ((r.mat I).mulVec y) ≤ K * (dst x' ((a.mat I).mulVec x) + δ) := by
  obtain ⟨L, R', hL, hR', hpost⟩ := postLinear_lipschitz W c hact bil r (r.size W + r.gates W) P (P * R + P)
  refine ⟨max 0 (L * (P + (P * R + P))), R', le_max_left _ _, hR', ?_⟩
  intro gens ε δ a B p I x x' hB hbil ha hp hpP hI hx hx' nx nx'
  obtain ⟨g1, h1, hl⟩ := hB.lin
  obtain ⟨s, rfl, hs⟩ := hc
  obtain ⟨l, l', e1, e2, l1, l2, n1, n2, d⟩ := hl.moves hI ha.wf h1.over.wf hP (by rw [hp.rows, hl.nout]) (by rw [hp.cols, hl.nin]) (by rw [hp.b, hl.nout])
    hx hx' hpP.w hpP.b nx nx'
  have hI' := hI.dual
  have hsq := Rep.mat_sq hI'.toSized hr.wf
  have c2 := (hB.bil I hI' c p.bw hp.bw.ge).addSelf (by simp [DMat.bdiag2, DMat.of, hsq.1])
  obtain ⟨r', y, f1, -, -, f4, -, f6⟩ := gated_spec hW hW.sgOK hr
  have c3 := gatedNonlinearity_commutes hW hW.sgOK hr hs f1 act hI' hI.perm
  rw [f4, f6 ℝ I hI'.toSized] at c3
  have c4 := c2.comp c3
  have ev : ∀ v : List ℝ, ((B.bil.applyVec W c p.bw v >>= fun y => Except.ok (zipWith (· + ·) y v)) >>= gatedNonlinearity W act (.sum s)) = postLinear W c act bil (.sum s) p.bw v := by
    intro v
    unfold postLinear
    rw [hbil]
    cases bil.applyVec W c p.bw v <;> rfl
  have hm : g1.mat I = DMat.bdiag2 ((Rep.sum s).mat I) (DMat.one ((Rep.sum s).gates W)) := h1.mat ℝ I hI'.toSized
  have hu : nrm ((g1.mat I).mulVec l) = nrm l := unit_nrm (Rep.mat_unit hI.unit h1.over.wf) l1
  have hlen : ((g1.mat I).mulVec l).length = (Rep.sum s).size W + (Rep.sum s).gates W := by
    rw [length_mulVec, (Rep.mat_sq hI'.toSized h1.over.wf).1, h1.size]
  rw [h1.size] at l1 l2
  obtain ⟨z, hz1, hz2, hz3⟩ := c4 l l1
  obtain ⟨z', hz1', hz2', -⟩ := c4 l' l2
  beta_reduce at hz1 hz3 hz1'
  rw [ev] at hz1 hz3 hz1'
  rw [← hm] at hz3
  have hbw : p.bw.length = bil.dims := by rw [hp.bw, hbil]
  refine ⟨z, z', ?_, ?_, hz2, hz2', (hpost _ _ hbw l1 hpP.bw n1 _ hz1).1, (hpost _ _ hbw l2 hpP.bw n2 _ hz1').1, ?_⟩
  · rw [Block.apply_eq, e1, hB.rep, hbil]; exact hz1
  · rw [Block.apply_eq, e2, hB.rep, hbil]; exact hz1'
  · have h2 := (hpost _ _ hbw hlen hpP.bw (by rw [hu]; exact n1) _ hz3).2 l' z' l2 n2 hz1'
    have h3 := add_nonneg (dst_nonneg x' ((a.mat I).mulVec x)) hI.nonneg
    calc dst z' (((Rep.sum s).mat I).mulVec z) ≤ L * dst l' ((g1.mat I).mulVec l) := h2
      _ ≤ L * ((P + (P * R + P)) * (dst x' ((a.mat I).mulVec x) + δ)) := mul_le_mul_of_nonneg_left d hL
      _ = (L * (P + (P * R + P))) * (dst x' ((a.mat I).mulVec x) + δ) := by ring
      _ ≤ _ := mul_le_mul_of_nonneg_right (le_max_right _ _) h3

/-! ### Networks -/

theorem blocks_moves (hW : W.SingleOK g N) (c : ℝ) {act : ℝ → ℝ} (hact : ContDiff ℝ 1 act) {P : ℝ} (hP : 0 ≤ P) (mids : List Rep) :
    ∀ (bils : List BilinearL) (R : ℝ), (∀ r ∈ mids, r.Over W g N ∧ r.CanonicalSum W) → ∃ K R' : ℝ, 0 ≤ K ∧ 0 ≤ R' ∧
      ∀ {gens : Gid → GenSet ℝ} {ε δ : ℝ} {a : Rep} {Bs : List (Block ℝ)} {ps : List (BlockParams ℝ)} {I : Interp ℝ} {x x' : List ℝ},
      Forall₂ (fun p B => Block.Near W g N gens ε p.1 p.2 B) ((a :: mids).zip mids) Bs → Bs.map Block.bil = bils → a.Over W g N →
      Forall₂ BlockParams.Shaped Bs ps → (∀ p ∈ ps, p.Within P) → MovesLittle W gens ε δ I → x.length = a.size W → x'.length = a.size W →
      nrm x ≤ R → nrm x' ≤ R → ∃ y y', applyBlocks W c act (Bs.zip ps) x = .ok y ∧ applyBlocks W c act (Bs.zip ps) x' = .ok y' ∧
        y.length = (mids.getLastD a).size W ∧ y'.length = (mids.getLastD a).size W ∧
        nrm y ≤ R' ∧ nrm y' ≤ R' ∧ dst y' (((mids.getLastD a).mat I).mulVec y) ≤ K * (dst x' ((a.mat I).mulVec x) + δ) := by
  induction mids with
  | nil =>
    intro bils R _
    refine ⟨1, max R 0, zero_le_one, le_max_right _ _, ?_⟩
    intro gens ε δ a Bs ps I x x' h1 _ ha h2 _ hI hx hx' nx nx'
    cases h1
    refine ⟨x, x', rfl, rfl, hx, hx', nx.trans (le_max_left _ _), nx'.trans (le_max_left _ _), ?_⟩
    have := hI.nonneg
    show dst x' ((a.mat I).mulVec x) ≤ _
    linarith
  | cons r t ih =>
    intro bils R hm
    have hr := hm r (by simp)
    cases bils with
    | nil =>
      refine ⟨0, 0, le_rfl, le_rfl, ?_⟩
      intro gens ε δ a Bs ps I x x' h1 hb
      rw [zip_cons_cons] at h1
      obtain ⟨B, Bs', hB, hBs, rfl⟩ := forall₂_cons_left_iff.1 h1
      simp at hb
    | cons bil bils =>
      obtain ⟨K1, R1, hK1, hR1, H1⟩ := block_moves hW c hact r bil hr.1 hr.2 hP R
      obtain ⟨K2, R2, hK2, hR2, H2⟩ := ih bils R1 fun q hq => hm q (by simp [hq])
      refine ⟨K2 * (K1 + 1), R2, mul_nonneg hK2 (by linarith), hR2, ?_⟩
      intro gens ε δ a Bs ps I x x' h1 hb ha h2 hps hI hx hx' nx nx'
      rw [zip_cons_cons] at h1
      obtain ⟨B, Bs', hB, hBs, rfl⟩ := forall₂_cons_left_iff.1 h1
      obtain ⟨p, ps', hp, hps', rfl⟩ := forall₂_cons_left_iff.1 h2
      rw [map_cons] at hb
      obtain ⟨hb1, hb2⟩ := List.cons.inj hb
      obtain ⟨y, y', e1, e2, l1, l2, n1, n2, d1⟩ := H1 hB hb1 ha hp (hps p (by simp)) hI hx hx' nx nx'
      obtain ⟨z, z', e3, e4, l3, l4, n3, n4, d2⟩ := H2 hBs hb2 hr.1 hps' (fun q hq => hps q (by simp [hq])) hI l1 l2 n1 n2
      refine ⟨z, z', ?_, ?_, by rw [getLastD_cons]; exact l3, by rw [getLastD_cons]; exact l4, n3, n4, ?_⟩
      · rw [zip_cons_cons]; simp only [applyBlocks]; rw [e1]; exact e3
      · rw [zip_cons_cons]; simp only [applyBlocks]; rw [e2]; exact e4
      · rw [getLastD_cons]
        refine d2.trans ?_
        rw [mul_assoc]
        refine mul_le_mul_of_nonneg_left ?_ hK2
        have := dst_nonneg x' ((a.mat I).mulVec x)
        linarith

theorem net_moves (hW : W.SingleOK g N) (c : ℝ) {act : ℝ → ℝ} (hact : ContDiff ℝ 1 act) {P : ℝ} (hP : 0 ≤ P) (mids : List Rep)
    (bils : List BilinearL) (R : ℝ) (hm : ∀ r ∈ mids, r.Over W g N ∧ r.CanonicalSum W) : ∃ K : ℝ, 0 ≤ K ∧
      ∀ {gens : Gid → GenSet ℝ} {ε δ : ℝ} {a o : Rep} {E : Emlp ℝ} {ps : List (BlockParams ℝ)} {w : DMat ℝ} {β : List ℝ} {I : Interp ℝ} {x : List ℝ},
      E.Near W g N gens ε a mids o → E.blocks.map Block.bil = bils → a.Over W g N → o.Over W g N → E.Shaped ps w β → (∀ p ∈ ps, p.Within P) → nrm w.flat ≤ P → nrm β ≤ P →
      MovesLittle W gens ε δ I → x.length = a.size W → nrm x ≤ R →
      ∃ y y', E.apply W c act ps w β x = .ok y ∧ E.apply W c act ps w β ((a.mat I).mulVec x) = .ok y' ∧ y.length = o.size W ∧ y'.length = o.size W ∧
        dst y' ((o.mat I).mulVec y) ≤ K * δ := by
  obtain ⟨K, R', hK, hR', H⟩ := blocks_moves hW c hact hP mids bils R hm
  have hc : 0 ≤ P + (P * R' + P) := by have := mul_nonneg hP hR'; linarith
  refine ⟨(P + (P * R' + P)) * (K + 1), mul_nonneg hc (by linarith), ?_⟩
  intro gens ε δ a o E ps w β I x hE hb ha ho hp hps nw nb hI hx nx
  have hl : (mids.getLastD a).Over W g N := by
    rcases mem_cons.1 (mem_getLastD mids a) with e | e
    · rw [e]; exact ha
    · exact (hm _ e).1
  have hx' : ((a.mat I).mulVec x).length = a.size W := by rw [length_mulVec, (Rep.mat_sq hI.dual.toSized ha.wf).1]
  have nx' : nrm ((a.mat I).mulVec x) ≤ R := by rw [unit_nrm (Rep.mat_unit hI.unit ha.wf) hx]; exact nx
  obtain ⟨y, y', e1, e2, l1, l2, n1, n2, d1⟩ := H hE.blocks hb ha hp.blocks hps hI hx hx' nx nx'
  obtain ⟨z, z', e3, e4, l3, l4, -, -, d2⟩ := hE.last.moves hI hl.wf ho.wf hP (by rw [hp.rows, hE.last.nout]) (by rw [hp.cols, hE.last.nin])
    (by rw [hp.b, hE.last.nout]) l1 l2 nw nb n1 n2
  refine ⟨z, z', by unfold Emlp.apply; rw [e1]; exact e3, by unfold Emlp.apply; rw [e2]; exact e4, l3, l4, d2.trans ?_⟩
  rw [mul_assoc]
  refine mul_le_mul_of_nonneg_left ?_ hc
  have h0 : dst ((a.mat I).mulVec x) ((a.mat I).mulVec x) = 0 := by
    rw [← toEu_dst hx', sub_self, norm_zero]
  rw [h0] at d1
  linarith

/-! ### What does not depend on the solver -/

/-- Started with the same `Scalar.G` and the same number of random draws, the two computations end with the same, and their results are
related by `P`. -/
def NetM.Same {α β : Type} (m : NetM ℝ α) (m' : NetM ℝ β) (P : α → β → Prop) : Prop :=
  ∀ σ τ, σ.sg = τ.sg → σ.draws = τ.draws → ∀ a σ' b τ', m σ = .ok (a, σ') → m' τ = .ok (b, τ') → (σ'.sg = τ'.sg ∧ σ'.draws = τ'.draws) ∧ P a b

theorem NetM.Same.pure {α β : Type} {a : α} {b : β} {P : α → β → Prop} (h : P a b) : NetM.Same (Pure.pure a) (Pure.pure b) P := by
  intro σ τ h1 h2 a' σ' b' τ' e1 e2
  obtain ⟨rfl, rfl⟩ := Prod.mk.inj (Except.ok.inj (show (Except.ok (a, σ) : Py (α × NetSt ℝ)) = .ok (a', σ') from e1))
  obtain ⟨rfl, rfl⟩ := Prod.mk.inj (Except.ok.inj (show (Except.ok (b, τ) : Py (β × NetSt ℝ)) = .ok (b', τ') from e2))
  exact ⟨⟨h1, h2⟩, h⟩

theorem NetM.Same.bind {α β α' β' : Type} {m : NetM ℝ α} {m' : NetM ℝ α'} {f : α → NetM ℝ β} {f' : α' → NetM ℝ β'} {P : α → α' → Prop} {Q : β → β' → Prop}
    (hm : NetM.Same m m' P) (hf : ∀ a b, P a b → NetM.Same (f a) (f' b) Q) : NetM.Same (m >>= f) (m' >>= f') Q := by
  intro σ τ h1 h2 a σ' b τ' e1 e2
  change (m σ >>= fun p => f p.1 p.2) = _ at e1
  change (m' τ >>= fun p => f' p.1 p.2) = _ at e2
  cases hm1 : m σ with
  | error e => rw [hm1] at e1; exact absurd e1 (by simp [Bind.bind, Except.bind])
  | ok p =>
    cases hm2 : m' τ with
    | error e => rw [hm2] at e2; exact absurd e2 (by simp [Bind.bind, Except.bind])
    | ok q =>
      rw [hm1] at e1
      rw [hm2] at e2
      obtain ⟨h3, h4⟩ := hm σ τ h1 h2 p.1 p.2 q.1 q.2 hm1 hm2
      exact hf p.1 q.1 h4 p.2 q.2 h3.1 h3.2 a σ' b τ' e1 e2

theorem NetM.Same.free {α : Type} {m : NetM ℝ α} (h : NetM.Free m) : NetM.Same m m Eq := by
  intro σ τ h1 h2 a σ' b τ' e1 e2
  have h3 := h σ τ.solve
  have : ({ σ with solve := τ.solve } : NetSt ℝ) = τ := by
    cases σ; cases τ; cases h1; cases h2; rfl
  rw [this, e1, e2] at h3
  obtain ⟨h4, h5⟩ := Prod.mk.inj (Except.ok.inj h3)
  rw [h5]
  exact ⟨⟨rfl, rfl⟩, h4.symm⟩

theorem NetM.Same.solver {α β : Type} (m : World → SolveM ℝ α) (m' : World → SolveM ℝ β) : NetM.Same (NetM.solver W m) (NetM.solver W m') fun _ _ => True := by
  have key : ∀ {γ : Type} (n : World → SolveM ℝ γ) (σ : NetSt ℝ) a σ', NetM.solver W n σ = .ok (a, σ') → σ'.sg = σ.sg ∧ σ'.draws = σ.draws := by
    intro γ n σ a σ' e
    unfold NetM.solver at e
    match hm : n (W.setG σ.sg) σ.solve with
    | (.error e', s) => rw [hm] at e; exact absurd e (by simp)
    | (.ok b, s) =>
      rw [hm] at e
      have := (Prod.mk.inj (Except.ok.inj e)).2
      rw [← this]
      exact ⟨rfl, rfl⟩
  intro σ τ h1 h2 a σ' b τ' e1 e2
  obtain ⟨h3, h4⟩ := key m σ a σ' e1
  obtain ⟨h5, h6⟩ := key m' τ b τ' e2
  exact ⟨⟨by rw [h3, h5, h1], by rw [h4, h6, h2]⟩, trivial⟩

theorem NetM.Same.mapM {α β β' : Type} {f : α → NetM ℝ β} {f' : α → NetM ℝ β'} {P : β → β' → Prop} (l : List α)
    (h : ∀ a ∈ l, NetM.Same (f a) (f' a) P) : NetM.Same (l.mapM f) (l.mapM f') (Forall₂ P) := by
  induction l with
  | nil => rw [mapM_nil, mapM_nil]; exact .pure .nil
  | cons a t ih =>
    rw [mapM_cons, mapM_cons]
    exact (h a (by simp)).bind fun b b' hb => (ih fun x hx => h x (by simp [hx])).bind fun bs bs' hbs => .pure (.cons hb hbs)

variable {gens : Gid → GenSet ℝ} {rng : Rng}

theorem LinearL.init_same (solve solve' : ℕ → LinOp ℝ → Py (DMat ℝ)) (a b : Rep) :
    NetM.Same (LinearL.init W gens solve a b) (LinearL.init W gens solve' a b) fun _ _ => True := by
  unfold LinearL.init
  exact (NetM.Same.free (.rep _)).bind fun r r' hr => (NetM.Same.solver _ _).bind fun _ _ _ => (NetM.Same.solver _ _).bind fun _ _ _ => .pure trivial

theorem Block.init_same (solve solve' : ℕ → LinOp ℝ → Py (DMat ℝ)) (a r : Rep) :
    NetM.Same (Block.init W gens solve rng a r) (Block.init W gens solve' rng a r) fun B B' => B.bil = B'.bil := by
  unfold Block.init
  refine (NetM.Same.free (.rep _)).bind fun g1 g1' h1 => ?_
  subst h1
  refine (LinearL.init_same solve solve' a g1).bind fun _ _ _ => (NetM.Same.free (.rep _)).bind fun g2 g2' h2 => ?_
  subst h2
  refine (NetM.Same.free (.rep _)).bind fun g3 g3' h3 => ?_
  subst h3
  exact (NetM.Same.free (BilinearL.init_free _ _)).bind fun b b' hb => .pure hb

theorem Emlp.init_same (solve solve' : ℕ → LinOp ℝ → Py (DMat ℝ)) (fuel : ℕ) (rin rout : Rep) (ch : Ch) (L : ℕ) :
    NetM.Same (Emlp.init W gens solve rng fuel rin rout g ch L) (Emlp.init W gens solve' rng fuel rin rout g ch L) fun E E' =>
      E.hidden = E'.hidden ∧ E.blocks.map Block.bil = E'.blocks.map Block.bil := by
  rw [Emlp.init_eq, Emlp.init_eq]
  refine (NetM.Same.free (.rep _)).bind fun a a' h1 => ?_
  subst h1
  refine (NetM.Same.free (.rep _)).bind fun o o' h2 => ?_
  subst h2
  refine (NetM.Same.free (parseCh_free _ _ _)).bind fun m m' h3 => ?_
  subst h3
  unfold Emlp.build
  refine (NetM.Same.mapM _ fun p _ => Block.init_same solve solve' p.1 p.2).bind fun bs bs' hbs => ?_
  refine (LinearL.init_same solve solve' _ o).bind fun _ _ _ => .pure ⟨rfl, ?_⟩
  show bs.map Block.bil = bs'.map Block.bil
  induction hbs with
  | nil => rfl
  | cons h _ ih => rw [map_cons, map_cons, h, ih]

end

end Verif
