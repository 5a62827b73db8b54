import Verif.Props.Emlp
import Verif.Props.Threads
import Verif.Lemmas.ApproxNet
import Verif.Lemmas.LayerComplete
import Verif.Lemmas.OrthoDim

/-! # C129: the network is determined by its arguments and the random draws, the basis up to a rotation -/
namespace Verif
open List

/-! ## Two runs side by side -/
section
variable {W : World} {g : Gid} {N : ℕ} {gens : Gid → GenSet ℝ} {solve solve' : ℕ → LinOp ℝ → Py (DMat ℝ)} {rng : Rng}

/-- Started in states that satisfy the invariant, with the same `Scalar.G` and the same number of random draws, the two computations end in such states,
with results related by `P`. -/
def NetM.Twin {α β : Type} (W : World) (g : Gid) (gens : Gid → GenSet ℝ) (m : NetM ℝ α) (m' : NetM ℝ β) (P : α → β → Prop) : Prop :=
  ∀ σ τ, NetSt.OK W g gens σ → NetSt.OK W g gens τ → σ.sg = τ.sg → σ.draws = τ.draws → ∀ a σ' b τ', m σ = .ok (a, σ') → m' τ = .ok (b, τ') →
    (NetSt.OK W g gens σ' ∧ NetSt.OK W g gens τ' ∧ σ'.sg = τ'.sg ∧ σ'.draws = τ'.draws) ∧ P a b

theorem NetM.Twin.of {α β : Type} {m : NetM ℝ α} {m' : NetM ℝ β} {P : α → β → Prop} {Q : α → Prop} {Q' : β → Prop} (h : NetM.Meets W g gens m Q)
    (h' : NetM.Meets W g gens m' Q') (hs : NetM.Same m m' P) : NetM.Twin W g gens m m' fun a b => P a b ∧ Q a ∧ Q' b := by
  intro σ τ h1 h2 h3 h4 a σ' b τ' e1 e2
  obtain ⟨i1, i2⟩ := h σ h1 a σ' e1
  obtain ⟨j1, j2⟩ := h' τ h2 b τ' e2
  obtain ⟨⟨k1, k2⟩, k3⟩ := hs σ τ h3 h4 a σ' b τ' e1 e2
  exact ⟨⟨i1, j1, k1, k2⟩, k3, i2, j2⟩

theorem NetM.Twin.pure {α β : Type} {a : α} {b : β} {P : α → β → Prop} (h : P a b) : NetM.Twin W g gens (Pure.pure a) (Pure.pure b) P := by
  intro σ τ h1 h2 h3 h4 a' σ' b' τ' e1 e2
  obtain ⟨rfl, rfl⟩ := Prod.mk.inj (Except.ok.inj (show (Except.ok (a, σ) : Py (α × NetSt ℝ)) = .ok (a', σ') from e1))
  obtain ⟨rfl, rfl⟩ := Prod.mk.inj (Except.ok.inj (show (Except.ok (b, τ) : Py (β × NetSt ℝ)) = .ok (b', τ') from e2))
  exact ⟨⟨h1, h2, h3, h4⟩, h⟩

theorem NetM.Twin.bind {α β α' β' : Type} {m : NetM ℝ α} {m' : NetM ℝ α'} {f : α → NetM ℝ β} {f' : α' → NetM ℝ β'} {P : α → α' → Prop} {Q : β → β' → Prop}
    (hm : NetM.Twin W g gens m m' P) (hf : ∀ a b, P a b → NetM.Twin W g gens (f a) (f' b) Q) : NetM.Twin W g gens (m >>= f) (m' >>= f') Q := by
  intro σ τ h1 h2 h3 h4 a σ' b τ' e1 e2
  change (m σ >>= fun p => f p.1 p.2) = _ at e1
  change (m' τ >>= fun p => f' p.1 p.2) = _ at e2
  cases hm1 : m σ with
  | error e => rw [hm1] at e1; exact absurd e1 (by simp [Bind.bind, Except.bind])
  | ok p =>
    cases hm2 : m' τ with
    | error e => rw [hm2] at e2; exact absurd e2 (by simp [Bind.bind, Except.bind])
    | ok q =>
      rw [hm1] at e1
      rw [hm2] at e2
      obtain ⟨⟨i1, i2, i3, i4⟩, h5⟩ := hm σ τ h1 h2 h3 h4 p.1 p.2 q.1 q.2 hm1 hm2
      exact hf p.1 q.1 h5 p.2 q.2 i1 i2 i3 i4 a σ' b τ' e1 e2

theorem NetM.Twin.mapM {α β β' : Type} {f : α → NetM ℝ β} {f' : α → NetM ℝ β'} {P : β → β' → Prop} (l : List α)
    (h : ∀ a ∈ l, NetM.Twin W g gens (f a) (f' a) P) : NetM.Twin W g gens (l.mapM f) (l.mapM f') (Forall₂ P) := by
  induction l with
  | nil => rw [mapM_nil, mapM_nil]; exact .pure .nil
  | cons a t ih =>
    rw [mapM_cons, mapM_cons]
    exact (h a (by simp)).bind fun b b' hb => (ih fun x hx => h x (by simp [hx])).bind fun bs bs' hbs => .pure (.cons hb hbs)

/-- Two layers that compute the same function. -/
def LinearL.Alike (L L' : LinearL ℝ) : Prop := L.nin = L'.nin ∧ L.nout = L'.nout ∧ L.Pw.sem = L'.Pw.sem ∧ L.Pb.sem = L'.Pb.sem

theorem LinearL.Alike.apply {L L' : LinearL ℝ} (h : L.Alike L') : L.apply = L'.apply := by
  obtain ⟨h1, h2, h3, h4⟩ := h
  funext w b x
  simp only [LinearL.apply, h1, h2, h3, h4]

/-- Two blocks that compute the same function. -/
def Block.Alike (B B' : Block ℝ) : Prop := B.lin.Alike B'.lin ∧ B.bil = B'.bil ∧ B.rep = B'.rep

theorem Block.Alike.apply {B B' : Block ℝ} (h : B.Alike B') (c : ℝ) (act : ℝ → ℝ) (p : BlockParams ℝ) (x : List ℝ) :
    B.apply W c act p x = B'.apply W c act p x := by
  obtain ⟨h1, h2, h3⟩ := h
  simp only [Block.apply, h1.apply, h2, h3]

/-- Two networks that compute the same function. -/
structure Emlp.Alike (E E' : Emlp ℝ) : Prop where
  repIn : E.repIn = E'.repIn
  repOut : E.repOut = E'.repOut
  hidden : E.hidden = E'.hidden
  blocks : Forall₂ Block.Alike E.blocks E'.blocks
  last : E.last.Alike E'.last

theorem Emlp.Alike.apply {E E' : Emlp ℝ} (h : E.Alike E') (c : ℝ) (act : ℝ → ℝ) : E.apply W c act = E'.apply W c act := by
  have key : ∀ {l l' : List (Block ℝ)}, Forall₂ Block.Alike l l' → ∀ (ps : List (BlockParams ℝ)) (x : List ℝ),
      applyBlocks W c act (l.zip ps) x = applyBlocks W c act (l'.zip ps) x := by
    intro l l' hl
    induction hl with
    | nil => intro ps x; rfl
    | @cons B B' l l' hB _ ih =>
      intro ps x
      cases ps with
      | nil => rfl
      | cons p ps =>
        rw [zip_cons_cons, zip_cons_cons, applyBlocks, applyBlocks]
        show (B.apply W c act p x >>= _) = (B'.apply W c act p x >>= _)
        rw [hB.apply]
        exact congrArg _ (funext fun y => ih ps y)
  funext ps w b x
  simp only [Emlp.apply, key h.blocks, h.last.apply]

/-! ## The constructors -/
variable (hW : W.SingleOK g N) (hs : GenSet.Sized W gens) (hsol : SolverOK W gens solve) (hsol' : SolverOK W gens solve')
include hW hs hsol hsol'

theorem projector_twin {b : Rep} (hb : b.Over W g N) : NetM.Twin W g gens (NetM.solver W fun W => b.equivariantProjector W gens solve)
    (NetM.solver W fun W => b.equivariantProjector W gens solve') fun P P' => P.sem = P'.sem := by
  intro σ τ h1 h2 h3 h4 a σ' b' τ' e1 e2
  obtain ⟨i, -, j1, j2⟩ := NetM.Twin.of (projector_net_exact hW hs hsol hb) (projector_net_exact hW hs hsol' hb) (NetM.Same.solver _ _)
    σ τ h1 h2 h3 h4 a σ' b' τ' e1 e2
  exact ⟨i, j1.unique j2⟩

theorem LinearL.init_twin {a b : Rep} (ha : a.Over W g N) (hb : b.Over W g N) (hN : b.size W * a.size W ≤ N) :
    NetM.Twin W g gens (LinearL.init W gens solve a b) (LinearL.init W gens solve' a b) LinearL.Alike := by
  have hm : NetM.Meets W g gens (NetM.rep (RepM.lift W fun W => Rep.rshift W a b) : NetM ℝ Rep) fun r => r.Over W g N := by
    refine NetM.Meets.lift fun x hx r hr => ?_
    have ha' := ha.setG hW hx
    have hb' := hb.setG hW hx
    obtain ⟨r', h1, -, h2, h3, -⟩ := Rep.rshift_spec (hW.setG hx) ha'.wf hb'.wf ha'.key hb'.key hN
    rw [h1] at hr
    cases hr
    exact Rep.Over.unsetG hW hx ⟨h2, h3⟩
  unfold LinearL.init
  refine NetM.Twin.bind (NetM.Twin.of hm hm (NetM.Same.free (.rep _))) ?_
  rintro r r' ⟨rfl, hr, -⟩
  refine NetM.Twin.bind (projector_twin hW hs hsol hsol' hr) fun Pw Pw' h1 => ?_
  refine NetM.Twin.bind (projector_twin hW hs hsol hsol' hb) fun Pb Pb' h2 => ?_
  exact .pure ⟨rfl, rfl, h1, h2⟩

theorem Block.init_twin {a r : Rep} {b : ℕ} (ha : a.Over W g N) (hr : r.Over W g N) (hra : a.size W + a.gates W ≤ b) (hrb : r.size W + r.gates W ≤ b)
    (hN : b * b ≤ N) (hrng : RngOK rng) : NetM.Twin W g gens (Block.init W gens solve rng a r) (Block.init W gens solve' rng a r) Block.Alike := by
  have hg : NetM.Meets W g gens (NetM.rep (gated W r) : NetM ℝ Rep) (GatedOf W g N r) := gated_meets hW hr
  have ht := NetM.Twin.of hg hg (NetM.Same.free (.rep _))
  unfold Block.init
  refine NetM.Twin.bind ht ?_
  rintro g1 _ ⟨rfl, h1, -⟩
  refine NetM.Twin.bind (LinearL.init_twin hW hs hsol hsol' ha h1.over (le_trans (Nat.mul_le_mul (h1.size ▸ hrb) (by omega)) hN)) fun lin lin' hl => ?_
  refine NetM.Twin.bind ht ?_
  rintro g2 _ ⟨rfl, h2, -⟩
  refine NetM.Twin.bind ht ?_
  rintro g3 _ ⟨rfl, h3, -⟩
  have hb := bilinear_meets (gens := gens) hW hrng h2 h3 (le_trans (Nat.mul_le_mul hrb hrb) hN)
  refine NetM.Twin.bind (NetM.Twin.of hb hb (NetM.Same.free (BilinearL.init_free _ _))) ?_
  rintro bil _ ⟨rfl, -⟩
  exact .pure ⟨hl, rfl, rfl⟩

theorem Emlp.build_twin {a o : Rep} {mids : List Rep} {b : ℕ} (hov : ∀ r ∈ a :: o :: mids, r.Over W g N ∧ r.size W + r.gates W ≤ b) (hN : b * b ≤ N)
    (hrng : RngOK rng) : NetM.Twin W g gens (Emlp.build W gens solve rng a mids o) (Emlp.build W gens solve' rng a mids o) Emlp.Alike := by
  unfold Emlp.build
  refine NetM.Twin.bind (NetM.Twin.mapM (P := Block.Alike) _ fun p hp => ?_) fun blocks blocks' hb => ?_
  · have h := chain_mem hov hp
    exact Block.init_twin hW hs hsol hsol' h.1.1 h.2.1.1 h.1.2 h.2.1.2 hN hrng
  · have hl := hov (mids.getLastD a) (by rcases mem_cons.1 (mem_getLastD mids a) with h | h; exacts [mem_cons.2 (.inl h), mem_cons_of_mem _ (mem_cons_of_mem _ h)])
    have ho := hov o (by simp)
    rw [getLastD_cons]
    refine NetM.Twin.bind (LinearL.init_twin hW hs hsol hsol' hl.1 ho.1 (le_trans (Nat.mul_le_mul (by omega) (by omega)) hN)) fun last last' hlast => ?_
    exact .pure ⟨rfl, rfl, rfl, hb, hlast⟩

end

section
variable {W : World} {g : Gid} {N : ℕ} {gens : Gid → GenSet ℝ} {solve solve' : ℕ → LinOp ℝ → Py (DMat ℝ)} {rng : Rng} {σ τ σ' τ' : NetSt ℝ}
  {ein eout : Expr} {rin rout : Rep} {fuel b L : ℕ} {ch : Ch} {ws : List ℕ} {E E' : Emlp ℝ}

/-- **C129.** Two networks built from the same arguments with the same random draws are the same function of parameters and inputs, although the numerical
routines may differ, the basis they find may differ, and so may everything computed and cached before. -/
theorem C129_network (hW : W.SingleOK g N) (hd : 2 ≤ W.d g) (hdN : W.d g ≤ N) (hs : GenSet.Sized W gens)
    (hsol : SolverOK W gens solve) (hsol' : SolverOK W gens solve') (hσ : NetReach W g gens solve σ) (hτ : NetReach W g gens solve' τ)
    (hsg : σ.sg = τ.sg) (hdr : σ.draws = τ.draws)
    (hrng : RngOK rng) (hin : RepArg W g N ein rin) (hout : RepArg W g N eout rout) (hch : ch.Widths W g N b L ws)
    (hbi : ein.dim W g ≤ b) (hbo : eout.dim W g ≤ b) (hbf : b < fuel) (hN : (2 * b) * (2 * b) ≤ N)
    (hE : Emlp.init W gens solve rng fuel rin rout g ch L σ = .ok (E, σ')) (hE' : Emlp.init W gens solve' rng fuel rin rout g ch L τ = .ok (E', τ')) :
    E.repIn = E'.repIn ∧ E.repOut = E'.repOut ∧ E.hidden = E'.hidden ∧
      (∀ (c : ℝ) (act : ℝ → ℝ) ps w β x, E.apply W c act ps w β x = E'.apply W c act ps w β x) := by
  have hbN : b ≤ N := by nlinarith [Nat.zero_le b]
  have key : NetM.Twin W g gens (Emlp.init W gens solve rng fuel rin rout g ch L) (Emlp.init W gens solve' rng fuel rin rout g ch L) Emlp.Alike := by
    rw [Emlp.init_eq, Emlp.init_eq]
    refine NetM.Twin.bind (NetM.Twin.of (hin.meets hW) (hin.meets hW) (NetM.Same.free (.rep _))) ?_
    rintro a _ ⟨rfl, ha, -⟩
    refine NetM.Twin.bind (NetM.Twin.of (hout.meets hW) (hout.meets hW) (NetM.Same.free (.rep _))) ?_
    rintro o _ ⟨rfl, ho, -⟩
    refine NetM.Twin.bind (NetM.Twin.of (parseCh_meets hW hd hdN hrng hbN hbf hch) (parseCh_meets hW hd hdN hrng hbN hbf hch)
      (NetM.Same.free (parseCh_free _ _ _))) ?_
    rintro m _ ⟨rfl, hm, -⟩
    exact Emlp.build_twin hW hs hsol hsol' (init_hov hW hd hdN hrng hbN hbf hch hs hsol hin hout hbi hbo hN ha ho hm) hN hrng
  have h := (key σ τ (hσ.ok hsol) (hτ.ok hsol') hsg hdr E σ' E' τ' hE hE').2
  exact ⟨h.repIn, h.repOut, h.hidden, fun c act ps w β x => by rw [h.apply]⟩

/-- Two orthonormal bases of the same space differ by an orthogonal matrix. -/
theorem OrthoBasis.rotate {K : Type} [Field K] [StarRing K] {n : ℕ} {Q Q' : DMat K} {F : List K → Prop} (h : OrthoBasis n Q F) (h' : OrthoBasis n Q' F) :
    Q.cols = Q'.cols ∧ ∃ O : DMat K, O.IsSq Q.cols ∧ O.conjTranspose.mul O = DMat.one Q.cols ∧ Q' = Q.mul O := by
  have hc : Q.cols = Q'.cols := by
    obtain rfl := h'.rows
    refine h.cols_eq Q'.lin' ?_ fun v => ?_
    · intro a b hab
      have h1 : ∀ a : Fin Q'.cols → K, Q'.conjTranspose.mulVec (Q'.mulVec (List.ofFn a)) = List.ofFn a := fun a => by
        rw [← DMat.mulVec_mul _ _ _ rfl, h'.orth, DMat.mulVec_one _ (by simp)]
      have h2 := h1 a
      rw [DMat.lin'_ofFn, hab, ← DMat.lin'_ofFn, h1 b] at h2
      exact (List.ofFn_injective h2).symm
    · rw [h'.span _ (by simp)]
      constructor
      · rintro ⟨a, ha, hv⟩
        refine ⟨fun j => a.getD j 0, List.ofFn_injective ?_⟩
        rw [← Q'.lin'_ofFn, ← hv]
        congr 1
        exact List.ext_getElem (by simp [ha]) fun i h1 h2 => by simp [h2]
      · rintro ⟨b, rfl⟩
        exact ⟨List.ofFn b, by simp, Q'.lin'_ofFn b⟩
  have hQ' : Q.mul (Q.conjTranspose.mul Q') = Q' := by
    rw [← DMat.mul_assoc' _ _ _ (by simp)]
    have hv : ∀ v : List K, v.length = Q'.cols → ((Q.mul Q.conjTranspose).mul Q').mulVec v = Q'.mulVec v := fun v hv => by
      rw [DMat.mulVec_mul _ _ _ (by simp [h.rows, h'.rows])]
      have hl : (Q'.mulVec v).length = n := by rw [DMat.length_mulVec, h'.rows]
      exact (h.proj hl).1 ((h'.span _ hl).2 ⟨v, hv, rfl⟩)
    refine DMat.ext (h.rows.trans h'.rows.symm) rfl fun i j hi hj => ?_
    have hj' : j < Q'.cols := hj
    have hi' : i < Q'.rows := by rw [h'.rows, ← h.rows]; exact hi
    have ev : ∀ X : DMat K, i < X.rows → X.cols = Q'.cols → (X.mulVec ((List.range Q'.cols).map fun k => if k = j then 1 else 0)).getD i 0 = X.e i j := by
      intro X h2 h3
      rw [DMat.getD_mulVec h2, h3, Finset.sum_eq_single j]
      · simp [hj']
      · intro k hk hkj
        rw [Finset.mem_range] at hk
        simp [hk, hkj]
      · intro h; exact absurd (Finset.mem_range.2 hj') h
    rw [← ev _ hi rfl, ← ev _ hi' rfl, hv _ (by simp)]
  refine ⟨hc, Q.conjTranspose.mul Q', ⟨rfl, hc.symm⟩, ?_, hQ'.symm⟩
  rw [DMat.conjTranspose_mul _ _ (by simp [h.rows, h'.rows]), DMat.conjTranspose_conjTranspose, DMat.mul_assoc' _ _ _ (by simp [h.rows, h'.rows]), hQ', h'.orth, hc]

end

section
variable {W : World} {K : Type} [Field K] [StarRing K] {gens : Gid → GenSet K} {solve solve' : ℕ → LinOp K → Py (DMat K)}

/-- **C129.** The matrices that `equivariant_basis()` returns for a representation, in two programs with different histories and different numerical routines,
have the same number of columns and differ by a unitary matrix of coefficients. -/
theorem C129_basis (hs : GenSet.Sized W gens) (hsol : SolverOK W gens solve) (hsol' : SolverOK W gens solve') {r : Rep} (hw : r.WF W) (hone : r.OnePerGroup)
    (calls calls' : List SolveCall) {B B' : LinOp K}
    (hB : (r.equivariantBasis W gens solve (session W gens solve calls freshSt)).1 = .ok B)
    (hB' : (r.equivariantBasis W gens solve' (session W gens solve' calls' freshSt)).1 = .ok B') :
    B.sem.cols = B'.sem.cols ∧ ∃ O : DMat K, O.IsSq B.sem.cols ∧ O.conjTranspose.mul O = DMat.one B.sem.cols ∧ B'.sem = B.sem.mul O :=
  ((C21_equivariant_basis hs hsol hw hone calls).1 B hB).rotate ((C21_equivariant_basis hs hsol' hw hone calls').1 B' hB')

end

/-- The hypotheses of `C129_network` are met by two numerical routines of which one returns the negative of what the other returns. -/
example : ∃ (solve solve' : ℕ → LinOp ℝ → Py (DMat ℝ)) (rng : Rng) (E E' : Emlp ℝ) (σ' τ' : NetSt ℝ),
    SolverOK exW (gensOf exW (stdAtoms exW fun k g => trivialAtom _ _) rotLies fun _ => []) solve ∧
    SolverOK exW (gensOf exW (stdAtoms exW fun k g => trivialAtom _ _) rotLies fun _ => []) solve' ∧ RngOK rng ∧
    (∀ n C Q, solve n C = .ok Q → solve' n C = .ok Q.neg) ∧
    RepArg exW 0 576 (.rep 0) Rep.V ∧ RepArg exW 0 576 .scalar (.key .scalar) ∧ Ch.Widths exW 0 576 12 0 (.list [.int 12, .int 7]) [12, 7] ∧
    Emlp.init exW (gensOf exW (stdAtoms exW fun k g => trivialAtom _ _) rotLies fun _ => []) solve rng 13 Rep.V (.key .scalar) 0
      (.list [.int 12, .int 7]) 0 ⟨freshSt, none, 0⟩ = .ok (E, σ') ∧
    Emlp.init exW (gensOf exW (stdAtoms exW fun k g => trivialAtom _ _) rotLies fun _ => []) solve' rng 13 Rep.V (.key .scalar) 0
      (.list [.int 12, .int 7]) 0 ⟨freshSt, none, 0⟩ = .ok (E', τ') := by
  obtain ⟨s, h1, h2⟩ := exists_solver ℝ
  obtain ⟨rng, hr⟩ := exists_rng
  have ha : RepArg exW 0 576 (.rep 0) Rep.V := ⟨⟨by decide, Or.inl rfl⟩, by decide, Or.inl rfl⟩
  have ho : RepArg exW 0 576 .scalar (.key .scalar) := ⟨trivial, by decide, Or.inl rfl⟩
  have hc : Ch.Widths exW 0 576 12 0 (.list [.int 12, .int 7]) [12, 7] :=
    .list _ _ (.cons (.int 12 (by decide) (by decide)) (.cons (.int 7 (by decide) (by decide)) .nil))
  have hi : (Ch.list [.int 12, .int 7]).Ints := .list _ fun c hc => by
      simp only [mem_cons, not_mem_nil, or_false] at hc
      rcases hc with rfl | rfl
      · exact ⟨12, by decide, rfl⟩
      · exact ⟨7, by decide, rfl⟩
  have hneg : SolverOK exW (gensOf exW (stdAtoms exW fun k g => trivialAtom _ _) rotLies fun _ => []) (fun _ C => (s C).map DMat.neg) := by
    intro n f C Q hC hQ
    cases hQ' : s C with
    | error e => beta_reduce at hQ; rw [hQ'] at hQ; cases hQ
    | ok Q' =>
      beta_reduce at hQ
      rw [hQ'] at hQ
      injection hQ with hQ
      rw [← hQ]
      exact (h1 exW _ 0 f C Q' hC hQ').neg
  have hσ : ∀ sol, NetReach exW 0 (gensOf exW (stdAtoms exW fun k g => trivialAtom _ _) rotLies fun _ => []) sol ⟨freshSt, none, 0⟩ :=
    fun _ => .start none 0 fun h e => by simp at e
  obtain ⟨E, σ', hE, -⟩ := C40_total (L := 0) (fuel := 13) (exW_single 0 576 (by decide)) (by decide) (by decide) rot_groups (h1 _ _) (fun _ _ C _ => h2 C) (hσ _)
    hr ha ho hc hi (by decide) (by decide) (by decide) (by decide)
  obtain ⟨E', τ', hE', -⟩ := C40_total (L := 0) (fuel := 13) (exW_single 0 576 (by decide)) (by decide) (by decide) rot_groups hneg
    (fun _ _ C _ => by obtain ⟨Q, hQ⟩ := h2 C; exact ⟨Q.neg, by beta_reduce; rw [hQ]; rfl⟩) (hσ _)
    hr ha ho hc hi (by decide) (by decide) (by decide) (by decide)
  exact ⟨_, _, rng, E, E', σ', τ', h1 _ _, hneg, hr, fun n C Q hQ => by beta_reduce at hQ ⊢; rw [hQ]; rfl, ha, ho, hc, hE, hE'⟩

end Verif
