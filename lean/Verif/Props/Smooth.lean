import Mathlib.Analysis.Calculus.ContDiff.RCLike
import Mathlib.Analysis.SpecialFunctions.Sigmoid
import Verif.Lemmas.Smooth
import Verif.Props.FrontEnds
import Verif.Props.HamiltonianNets
import Verif.Props.Losses

/-!
# C111: networks are smooth functions of their inputs and parameters
-/
namespace Verif
open List

section
variable {T : Type*} [NormedAddCommGroup T] [NormedSpace ℝ T] {k : WithTop ℕ∞} {W : World}

/-- **C111, networks.** If the activation of the gates is `k` times continuously differentiable then so is the output of the network, jointly
in the input and in all trainable parameters, however these depend on `t`; or the network raises the same exception for all of them. -/
theorem C111_network (c : ℝ) {act : ℝ → ℝ} (hact : ContDiff ℝ k act) (E : Emlp ℝ) {ps : List (T → BlockParams ℝ)} (hps : ∀ p ∈ ps, SmoothBlock k p)
    {w : T → DMat ℝ} {m n : ℕ} (hw : SmoothMat k m n w) {β : T → List ℝ} {l : ℕ} (hβ : SmoothVec k l β) {x : T → List ℝ} {d : ℕ} (hx : SmoothVec k d x) :
    SmoothCall k fun t => E.apply W c act (ps.map fun p => p t) (w t) (β t) (x t) :=
  SmoothCall.bind (F := fun t y => E.last.apply (w t) (β t) y) (SmoothCall.blocks W c hact E.blocks ps hps hx) fun _ _ hy => SmoothCall.linear E.last hw hβ hy

theorem SmoothVec.ofFn (n : ℕ) : SmoothVec k n fun v : Fin n → ℝ => List.ofFn v := by
  refine ⟨fun v => by simp, fun i => ?_⟩
  by_cases h : i < n
  · simpa [List.getD, h] using contDiff_apply ℝ ℝ (⟨i, h⟩ : Fin n)
  · simpa [List.getD, h] using contDiff_const

theorem SmoothBlock.const (p : BlockParams ℝ) : SmoothBlock k fun _ : T => p :=
  ⟨⟨_, _, fun _ => ⟨rfl, rfl⟩, fun _ _ => contDiff_const⟩, ⟨_, fun _ => rfl, fun _ => contDiff_const⟩, ⟨_, fun _ => rfl, fun _ => contDiff_const⟩⟩

/-- With fixed parameters: a network that returns for one input of a length returns for all of them, smoothly. -/
theorem C111_input (c : ℝ) {act : ℝ → ℝ} (hact : ContDiff ℝ k act) (E : Emlp ℝ) (ps : List (BlockParams ℝ)) (w : DMat ℝ) (β : List ℝ) {x0 y0 : List ℝ}
    (h0 : E.apply W c act ps w β x0 = .ok y0) : ∃ f : List ℝ → List ℝ, (∀ x, x.length = x0.length → E.apply W c act ps w β x = .ok (f x) ∧ (f x).length = y0.length) ∧
      ∀ i, ContDiff ℝ k fun v : Fin x0.length → ℝ => (f (List.ofFn v)).getD i 0 := by
  have h := C111_network (T := Fin x0.length → ℝ) (W := W) c hact E (ps := ps.map fun p _ => p)
    (fun p hp => by obtain ⟨q, -, rfl⟩ := mem_map.1 hp; exact SmoothBlock.const q)
    (w := fun _ => w) ⟨fun _ => ⟨rfl, rfl⟩, fun _ _ => contDiff_const⟩ (β := fun _ => β) ⟨fun _ => rfl, fun _ => contDiff_const⟩ (SmoothVec.ofFn (k := k) x0.length)
  simp only [map_map, Function.comp_def, map_id'] at h
  have hx0 : (List.ofFn fun i : Fin x0.length => x0.getD i 0) = x0 := ofFn_getD rfl
  rcases h with ⟨n, y, hy, h⟩ | ⟨e, h⟩
  · beta_reduce at h
    refine ⟨fun x => y fun i => x.getD i 0, fun x hx => ?_, fun i => ?_⟩
    · have hx' : (List.ofFn fun i : Fin x0.length => x.getD i 0) = x := ofFn_getD hx
      refine ⟨by rw [← h, hx'], ?_⟩
      have := h fun i => x0.getD i 0
      rw [hx0, h0] at this
      rw [Except.ok.inj this, hy.1, hy.1]
    · have : (fun v : Fin x0.length → ℝ => (y fun i => (List.ofFn v).getD i 0).getD i 0) = fun v => (y v).getD i 0 := by
        funext v
        congr 2
        funext j
        exact getD_ofFn _ j
      rw [this]
      exact hy.2 i
  · beta_reduce at h
    have := h fun i => x0.getD i 0
    rw [hx0, h0] at this
    cases this

/-- **C111, the activation of the library.** The gates use the sigmoid, which is analytic: so are all networks, in inputs and parameters. -/
theorem C111_sigmoid (c : ℝ) (E : Emlp ℝ) {ps : List (T → BlockParams ℝ)} (hps : ∀ p ∈ ps, SmoothBlock k p)
    {w : T → DMat ℝ} {m n : ℕ} (hw : SmoothMat k m n w) {β : T → List ℝ} {l : ℕ} (hβ : SmoothVec k l β) {x : T → List ℝ} {d : ℕ} (hx : SmoothVec k d x) :
    SmoothCall k fun t => E.apply W c Real.sigmoid (ps.map fun p => p t) (w t) (β t) (x t) :=
  C111_network c (contDiff_sigmoid.of_le le_top) E hps hw hβ hx

end

section
variable {T : Type*} [NormedAddCommGroup T] [NormedSpace ℝ T] {k : WithTop ℕ∞}
variable {W : World} {g : Gid} {N : ℕ} {custom : ∀ k g, AtomRep ℝ (W.d g) (W.usize k g)}
  {lie disc : ∀ g, List (Matrix (Fin (W.d g)) (Fin (W.d g)) ℝ)} {solve : ℕ → LinOp ℝ → Py (DMat ℝ)} {rng : Rng} {σ σ' : NetSt ℝ}
  {ein eout : Expr} {rin rout : Rep} {fuel b L : ℕ} {ch : Ch} {ws : List ℕ} {E : Emlp ℝ}

/-- **C111, the training loss.** In every front end: if the network returns on a batch for one choice of the trainable parameters, then it
returns for all of them, and the mean squared error against fixed labels is a `k` times continuously differentiable function of the parameters. -/
theorem C111_loss (hW : W.SingleOK g N) (hd : 2 ≤ W.d g) (hdN : W.d g ≤ N) (ok : GroupsOK W custom lie disc)
    (hsol : SolverOK W (gensOf W (stdAtoms W custom) lie disc) solve) (hσ : NetReach W g (gensOf W (stdAtoms W custom) lie disc) solve σ)
    (hrng : RngOK rng) (hin : RepArg W g N ein rin) (hout : RepArg W g N eout rout) (hch : ch.Widths W g N b L ws)
    (hbi : ein.dim W g ≤ b) (hbo : eout.dim W g ≤ b) (hbf : b < fuel) (hN : (2 * b) * (2 * b) ≤ N) (F : FrontEnd)
    (hE : F.emlp W (gensOf W (stdAtoms W custom) lie disc) solve rng fuel rin rout g ch L σ = .ok (E, σ')) (c : ℝ) {act : ℝ → ℝ} (hact : ContDiff ℝ k act)
    {ps : List (T → BlockParams ℝ)} (hps : ∀ p ∈ ps, SmoothBlock k p) {w : T → DMat ℝ} {m n : ℕ} (hw : SmoothMat k m n w)
    {β : T → List ℝ} {l : ℕ} (hβ : SmoothVec k l β) (hp : ∀ t, E.Shaped (ps.map fun p => p t) (w t) (β t))
    {X Y P0 : DMat ℝ} (hX : X.cols = ein.dim W g) (hX0 : 0 < X.rows) (ho : 0 < eout.dim W g) (hY : Y.rows = X.rows) (hY' : Y.cols = eout.dim W g)
    {t0 : T} (h0 : F.apply W c act E (ps.map fun p => p t0) (w t0) (β t0) X = .ok P0) :
    ∃ loss : T → ℝ, ContDiff ℝ k loss ∧ ∀ t, ∃ P, F.apply W c act E (ps.map fun p => p t) (w t) (β t) X = .ok P ∧ mse P (.d2 Y) = .ok (some (loss t)) := by
  have hC := fun t => C42_function hW hd hdN ok hsol hσ hrng hin hout hch hbi hbo hbf hN F hE (hp t) c act
  have hrow : ∀ i, ∃ y : T → List ℝ, (∀ j, ContDiff ℝ k fun t => (y t).getD j 0) ∧
      (i < X.rows → ∀ t, E.apply W c act (ps.map fun p => p t) (w t) (β t) (X.row i) = .ok (y t)) := by
    intro i
    by_cases hi : i < X.rows
    · rcases C111_network (W := W) c hact E hps hw hβ (x := fun _ : T => X.row i) ⟨fun _ => rfl, fun _ => contDiff_const⟩ with ⟨n, y, hy, h⟩ | ⟨e, h⟩
      · exact ⟨y, hy.2, fun _ => h⟩
      · exfalso
        have ht := h t0
        beta_reduce at ht
        rcases hC t0 with h1 | ⟨h1, -⟩
        · obtain ⟨Y1, -, -, -, h4⟩ := h1 X hX
          rw [h4 i hi] at ht
          cases ht
        · obtain ⟨e', h1⟩ := h1 X
          rw [h0] at h1
          cases h1
    · exact ⟨fun _ => [], fun _ => contDiff_const, fun h => absurd h hi⟩
  choose y hy hyr using hrow
  refine ⟨fun t => (∑ i ∈ Finset.range X.rows, ∑ j ∈ Finset.range (eout.dim W g), ((y i t).getD j 0 - Y.e i j) ^ 2) / (X.rows * eout.dim W g), ?_, fun t => ?_⟩
  · exact (ContDiff.sum fun i _ => ContDiff.sum fun j _ => ((hy i j).sub contDiff_const).pow 2).div_const _
  rcases hC t with h1 | ⟨-, h1⟩
  · obtain ⟨P, h1, h2, h3, h4⟩ := h1 X hX
    refine ⟨P, h1, ?_⟩
    obtain ⟨v, a1, a2, -⟩ := C98_mse (P := P) (Y := Y) (hY.trans h2.symm) (hY'.trans h3.symm) (by rw [h2]; exact hX0) (by rw [h3]; exact ho)
    rw [a1, a2, h2, h3]
    congr 3
    refine Finset.sum_congr rfl fun i hi => Finset.sum_congr rfl fun j _ => ?_
    have hi' := Finset.mem_range.1 hi
    have := h4 i hi'
    rw [hyr i hi' t] at this
    rw [Except.ok.inj this, DMat.getD_row]
  · obtain ⟨e, h1⟩ := h1 (X.row 0)
    rw [hyr 0 hX0 t] at h1
    cases h1

end

/-! Cases: the network of C40's example, with input `x` and all parameters constant, is one call that returns; the entries of its last weight
matrix as parameters `t`. -/
example : SmoothVec ⊤ 2 fun t : ℝ => [t, Real.sigmoid t] := ⟨fun _ => rfl, fun i => by
  rcases i with _ | _ | i
  · exact contDiff_id
  · exact contDiff_sigmoid.of_le le_top
  · exact contDiff_const⟩
example : SmoothMat ⊤ 1 2 fun t : ℝ × ℝ => DMat.of 1 2 fun _ j => if j = 0 then t.1 else t.2 := ⟨fun _ => ⟨rfl, rfl⟩, fun i j => by
  by_cases h : i < 1 ∧ j < 2
  · simp only [DMat.of, h, and_self, if_true]
    by_cases hj : j = 0
    · simp only [hj, if_true]; exact contDiff_fst
    · simp only [hj, if_false]; exact contDiff_snd
  · simp only [DMat.of, h, if_false]; exact contDiff_const⟩

/-- A network that meets the hypotheses of `C111_input` and, with the batch of one zero row, those of `C111_loss`. -/
example : ∃ (solve : ℕ → LinOp ℝ → Py (DMat ℝ)) (rng : Rng) (E : Emlp ℝ) (σ' : NetSt ℝ),
    Emlp.init exW (gensOf exW (stdAtoms exW fun k g => trivialAtom _ _) rotLies fun _ => []) solve rng 13 Rep.V (.key .scalar) 0
      (.list [.int 12, .int 7]) 0 ⟨freshSt, none, 0⟩ = .ok (E, σ') ∧
    ∀ ps w β, E.Shaped ps w β → ∃ y, E.apply exW 0.1 Real.sigmoid ps w β [0, 0, 0] = .ok y := by
  obtain ⟨s, h1, h2⟩ := exists_solver ℝ
  obtain ⟨rng, hr⟩ := exists_rng
  have ha : RepArg exW 0 576 (.rep 0) Rep.V := ⟨⟨by decide, Or.inl rfl⟩, by decide, Or.inl rfl⟩
  have ho : RepArg exW 0 576 .scalar (.key .scalar) := ⟨trivial, by decide, Or.inl rfl⟩
  have hc : Ch.Widths exW 0 576 12 0 (.list [.int 12, .int 7]) [12, 7] :=
    .list _ _ (.cons (.int 12 (by decide) (by decide)) (.cons (.int 7 (by decide) (by decide)) .nil))
  have hσ : NetReach exW 0 (gensOf exW (stdAtoms exW fun k g => trivialAtom _ _) rotLies fun _ => []) (fun _ => s) ⟨freshSt, none, 0⟩ :=
    .start none 0 fun h e => by simp at e
  obtain ⟨E, σ', hE, h⟩ := C40_total (L := 0) (fuel := 13) (exW_single 0 576 (by decide)) (by decide) (by decide) rot_groups (h1 _ _) (fun _ _ C _ => h2 C) hσ hr ha ho hc
    (.list _ fun c hc => by
      simp only [mem_cons, not_mem_nil, or_false] at hc
      rcases hc with rfl | rfl
      · exact ⟨12, by decide, rfl⟩
      · exact ⟨7, by decide, rfl⟩) (by decide) (by decide) (by decide) (by decide)
  exact ⟨_, rng, E, σ', hE, fun ps w β hp => h ps w β hp _ _ _ rfl⟩

end Verif
