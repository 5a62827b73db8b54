import Verif.Lemmas.FrontEnds
import Verif.Props.Emlp

/-!
# C42: objax, PyTorch, Flax and Haiku build and compute the same networks
-/
namespace Verif
open List

section
variable {W : World} {g : Gid} {N : ℕ} {custom : ∀ k g, AtomRep ℝ (W.d g) (W.usize k g)}
  {lie disc : ∀ g, List (Matrix (Fin (W.d g)) (Fin (W.d g)) ℝ)} {solve : ℕ → LinOp ℝ → Py (DMat ℝ)} {rng : Rng} {σ σ' : NetSt ℝ}
  {ein eout : Expr} {rin rout : Rep} {fuel b L : ℕ} {ch : Ch} {ws : List ℕ} {E : Emlp ℝ}

/-- **C42, construction.** For every argument and every state of the process, the constructor `EMLP` of each front end does what that
of objax does: the same sizes, projectors, random choices and exceptions, and the same state afterwards. -/
theorem C42_construction (W : World) {R : Type} [CommRing R] (gens : Gid → GenSet R) (solve : ℕ → LinOp R → Py (DMat R)) (rng : Rng) (F : FrontEnd)
    (fuel : ℕ) (repIn repOut : Rep) (g : Gid) (ch : Ch) (n : ℕ) :
    F.emlp W gens solve rng fuel repIn repOut g ch n = Emlp.init W gens solve rng fuel repIn repOut g ch n :=
  FrontEnd.emlp_eq W gens solve rng F fuel repIn repOut g ch n

/-- **C42, function.** With the same parameters, the network of every front end computes on a batch, row by row, the function that
the objax network computes on single vectors (`Emlp.apply`, the one of C36 and C40); or all of them raise on every input. -/
theorem C42_function (hW : W.SingleOK g N) (hd : 2 ≤ W.d g) (hdN : W.d g ≤ N) (ok : GroupsOK W custom lie disc)
    (hsol : SolverOK W (gensOf W (stdAtoms W custom) lie disc) solve) (hσ : NetReach W g (gensOf W (stdAtoms W custom) lie disc) solve σ)
    (hrng : RngOK rng) (hin : RepArg W g N ein rin) (hout : RepArg W g N eout rout) (hch : ch.Widths W g N b L ws)
    (hbi : ein.dim W g ≤ b) (hbo : eout.dim W g ≤ b) (hbf : b < fuel) (hN : (2 * b) * (2 * b) ≤ N) (F : FrontEnd)
    (hE : F.emlp W (gensOf W (stdAtoms W custom) lie disc) solve rng fuel rin rout g ch L σ = .ok (E, σ'))
    {ps : List (BlockParams ℝ)} {w : DMat ℝ} {β : List ℝ} (hp : E.Shaped ps w β) (c : ℝ) (act : ℝ → ℝ) :
    (∀ X : DMat ℝ, X.cols = ein.dim W g → ∃ Y, F.apply W c act E ps w β X = .ok Y ∧ Y.rows = X.rows ∧ Y.cols = eout.dim W g ∧
      ∀ i < X.rows, E.apply W c act ps w β (X.row i) = .ok (Y.row i)) ∨
    ((∀ X, ∃ e, F.apply W c act E ps w β X = .error e) ∧ ∀ x, ∃ e, E.apply W c act ps w β x = .error e) := by
  have hbN : b ≤ N := by nlinarith [Nat.zero_le b]
  rw [FrontEnd.emlp_eq] at hE
  obtain ⟨a, o, mids, ha, ho, hm, good⟩ :=
    (Emlp.init_meets hW hd hdN hrng hbN hbf hch gensOf_sized hsol hin hout hbi hbo hN σ (hσ.ok hsol) E σ' hE).2
  by_cases hc : ∀ r ∈ mids, r.CanonicalSum W
  · refine Or.inl fun X hX => ?_
    have := good.rowwise (fun r hr => ⟨(hm.2.1 r hr).1, hc r hr⟩) F c act hp X (by rw [hX, ha.2.1])
    rw [ho.2.1] at this
    exact this
  · push Not at hc
    exact Or.inr ⟨fun X => good.batch_raises (fun r hr => (hm.2.1 r hr).1) hc F c act hp.blocks.length_eq.symm X,
      fun x => good.raises (fun r hr => (hm.2.1 r hr).1) hc c act hp.blocks.length_eq.symm x⟩

/-- **C42, equivariance of batches.** In every front end, if the network returns `Y` on the batch `X`, then on the batch whose rows
are `ρ_in(h)x` it returns the batch whose rows are `ρ_out(h)y`. -/
theorem C42_equivariant (hW : W.SingleOK g N) (hd : 2 ≤ W.d g) (hdN : W.d g ≤ N) (ok : GroupsOK W custom lie disc)
    (hsol : SolverOK W (gensOf W (stdAtoms W custom) lie disc) solve) (hσ : NetReach W g (gensOf W (stdAtoms W custom) lie disc) solve σ)
    (hrng : RngOK rng) (hin : RepArg W g N ein rin) (hout : RepArg W g N eout rout) (hch : ch.Widths W g N b L ws)
    (hbi : ein.dim W g ≤ b) (hbo : eout.dim W g ≤ b) (hbf : b < fuel) (hN : (2 * b) * (2 * b) ≤ N) (F : FrontEnd)
    (hE : F.emlp W (gensOf W (stdAtoms W custom) lie disc) solve rng fuel rin rout g ch L σ = .ok (E, σ'))
    {ps : List (BlockParams ℝ)} {w : DMat ℝ} {β : List ℝ} (hp : E.Shaped ps w β) (c : ℝ) (act : ℝ → ℝ)
    {h : Matrix (Fin (W.d g)) (Fin (W.d g)) ℝ} (hg : Generated (lie g) (disc g) h) {X Y X' : DMat ℝ} (hX : X.cols = ein.dim W g)
    (hX' : X'.rows = X.rows ∧ X'.cols = X.cols) (hrow : ∀ i < X.rows, X'.row i = (ein.den g (Interp.elem W custom g h)).1.mulVec (X.row i))
    (hY : F.apply W c act E ps w β X = .ok Y) :
    ∃ Y', F.apply W c act E ps w β X' = .ok Y' ∧ Y'.rows = Y.rows ∧
      ∀ i < X.rows, Y'.row i = (eout.den g (Interp.elem W custom g h)).1.mulVec (Y.row i) := by
  rcases C42_function hW hd hdN ok hsol hσ hrng hin hout hch hbi hbo hbf hN F hE hp c act with hf | ⟨hf, -⟩
  · obtain ⟨Y1, h1, h2, h3, h4⟩ := hf X hX
    obtain ⟨Y2, k1, k2, k3, k4⟩ := hf X' (by rw [hX'.2, hX])
    rw [hY] at h1
    have := Except.ok.inj h1
    subst this
    refine ⟨Y2, k1, by rw [k2, h2, hX'.1], fun i hi => ?_⟩
    have e1 := k4 i (by rw [hX'.1]; exact hi)
    rw [FrontEnd.emlp_eq] at hE
    have e2 := C40_equivariant hW hd hdN ok hsol hσ hrng hin hout hch hbi hbo hbf hN hE hp c act hg (by rw [DMat.length_row, hX]) (h4 i hi)
    rw [hrow i hi, e2] at e1
    exact (Except.ok.inj e1).symm
  · obtain ⟨e, he⟩ := hf X
    rw [he] at hY; cases hY

/-- **C42, `Linear`.** The layer that any front end builds (with the same projectors, whatever the expression for the weight
representation) computes, row by row, the equivariant map of C30. -/
theorem C42_linear (hW : W.SingleOK g N) (hsol : SolverOK W (gensOf W (stdAtoms W custom) lie disc) solve)
    (hσ : NetReach W g (gensOf W (stdAtoms W custom) lie disc) solve σ) {a o : Rep} (ha : a.Over W g N) (ho : o.Over W g N)
    (hN : o.size W * a.size W ≤ N) (F : FrontEnd) {L : LinearL ℝ}
    (hL : F.linearInit W (gensOf W (stdAtoms W custom) lie disc) solve a o σ = .ok (L, σ')) {w : DMat ℝ} {β : List ℝ}
    (hw : w.rows = o.size W) (hw' : w.cols = a.size W) (hβ : β.length = o.size W) (X : DMat ℝ) (hX : X.cols = a.size W) :
    LinearL.init W (gensOf W (stdAtoms W custom) lie disc) solve a o σ = .ok (L, σ') ∧
    ∃ Y, F.linear L w β X = .ok Y ∧ Y.rows = X.rows ∧ Y.cols = o.size W ∧ ∀ i < X.rows, L.apply w β (X.row i) = .ok (Y.row i) := by
  rw [FrontEnd.linearInit_eq] at hL
  have good := (LinearL.init_meets hW gensOf_sized hsol ha ho hN σ (hσ.ok hsol) L σ' hL).2
  exact ⟨hL, good.rowwise F (by rw [hw, good.nout]) (by rw [hw', good.nin]) (by rw [hβ, good.nout]) X hX⟩

end

/-! A case: the network of C40's example, `3 → 12 → 7 → 1`, can be built in every front end. -/

example (F : FrontEnd) : ∃ (solve : ℕ → LinOp ℝ → Py (DMat ℝ)) (rng : Rng) (E : Emlp ℝ) (σ' : NetSt ℝ),
    SolverOK exW (gensOf exW (stdAtoms exW fun k g => trivialAtom _ _) rotLies fun _ => []) solve ∧ RngOK rng ∧
    F.emlp exW (gensOf exW (stdAtoms exW fun k g => trivialAtom _ _) rotLies fun _ => []) solve rng 13 Rep.V (.key .scalar) 0
      (.list [.int 12, .int 7]) 0 ⟨freshSt, none, 0⟩ = .ok (E, σ') := by
  obtain ⟨s, h1, h2⟩ := exists_solver ℝ
  obtain ⟨rng, hr⟩ := exists_rng
  have ha : RepArg exW 0 576 (.rep 0) Rep.V := ⟨⟨by decide, Or.inl rfl⟩, by decide, Or.inl rfl⟩
  have ho : RepArg exW 0 576 .scalar (.key .scalar) := ⟨trivial, by decide, Or.inl rfl⟩
  have hc : Ch.Widths exW 0 576 12 0 (.list [.int 12, .int 7]) [12, 7] :=
    .list _ _ (.cons (.int 12 (by decide) (by decide)) (.cons (.int 7 (by decide) (by decide)) .nil))
  have hσ : NetReach exW 0 (gensOf exW (stdAtoms exW fun k g => trivialAtom _ _) rotLies fun _ => []) (fun _ => s) ⟨freshSt, none, 0⟩ :=
    .start none 0 fun h e => by simp at e
  obtain ⟨E, σ', hE, -⟩ := C40_total (L := 0) (fuel := 13) (exW_single 0 576 (by decide)) (by decide) (by decide) rot_groups (h1 _ _) (fun _ _ C _ => h2 C) hσ hr ha ho hc
    (.list _ fun c hc => by
      simp only [mem_cons, not_mem_nil, or_false] at hc
      rcases hc with rfl | rfl
      · exact ⟨12, by decide, rfl⟩
      · exact ⟨7, by decide, rfl⟩) (by decide) (by decide) (by decide) (by decide)
  exact ⟨_, rng, E, σ', h1 _ _, hr, by rw [FrontEnd.emlp_eq]; exact hE⟩

/-! ### `torchify_fn` -/

section
variable {α : Type}

/-- The array at a leaf, whichever library holds it. -/
def Leaf.value : Leaf α → Option α
  | .jax a | .numpy a | .torch a => some a
  | .other _ => none

/-- **C42, autograd.** Provided `jax.vjp` returns the value of the function and its pullback, the torch function has the values of the
jax function on the same arrays, with or without gradients; no jax array leaves it; and its backward pass is the pullback at
the same point. -/
theorem C42_torchify (f : List (Leaf α) → List (Leaf α)) (vjp : List (Leaf α) → List (Leaf α) × (List (Leaf α) → List (Leaf α)))
    (hv : ∀ args, (vjp args).1 = f args) (needs : Bool) (args jargs : List (Leaf α)) (hj : jargs.map Leaf.value = args.map Leaf.value)
    (hjax : ∀ l ∈ jargs, ∃ a, l = .jax a) (ht : ∀ l ∈ args, ∃ a, l = .torch a) :
    (torchify f vjp needs args).1.map Leaf.value = (f jargs).map Leaf.value ∧
    (∀ l ∈ (torchify f vjp needs args).1, ∀ a, l ≠ .jax a ∧ l ≠ .numpy a) ∧
    ∀ bw, (torchify f vjp needs args).2 = some bw → ∀ gs jgs, (∀ l ∈ gs, ∃ a, l = .torch a) → (∀ l ∈ jgs, ∃ a, l = .jax a) →
      jgs.map Leaf.value = gs.map Leaf.value → (bw gs).map Leaf.value = ((vjp jargs).2 jgs).map Leaf.value := by
  have key : ∀ ts js : List (Leaf α), (∀ l ∈ ts, ∃ a, l = .torch a) → (∀ l ∈ js, ∃ a, l = .jax a) → js.map Leaf.value = ts.map Leaf.value →
      ts.map Leaf.toJax = js := by
    intro ts
    induction ts with
    | nil => intro js _ _ h; simp at h; exact h.symm
    | cons t ts ih =>
      intro js h1 h2 h
      cases js with
      | nil => simp at h
      | cons j js =>
        obtain ⟨a, rfl⟩ := h1 t (by simp)
        obtain ⟨b, rfl⟩ := h2 j (by simp)
        simp only [map_cons, cons.injEq, Leaf.value, Option.some.injEq] at h
        rw [map_cons, ih js (fun l hl => h1 l (by simp [hl])) (fun l hl => h2 l (by simp [hl])) h.2, ← h.1]
        rfl
  have hval : ∀ l : List (Leaf α), (l.map Leaf.toTorch).map Leaf.value = l.map Leaf.value := by
    intro l
    rw [map_map]
    refine map_congr_left fun x _ => ?_
    cases x <;> rfl
  have hno : ∀ l : List (Leaf α), ∀ x ∈ l.map Leaf.toTorch, ∀ a, x ≠ .jax a ∧ x ≠ .numpy a := by
    intro l x hx a
    obtain ⟨y, -, rfl⟩ := mem_map.1 hx
    cases y <;> simp [Leaf.toTorch]
  have ej := key args jargs ht hjax hj
  cases needs with
  | false =>
    unfold torchify
    simp only [Bool.false_eq_true, if_false, ej]
    exact ⟨hval _, hno _, fun bw h => by cases h⟩
  | true =>
    unfold torchify
    simp only [if_true, ej]
    refine ⟨by rw [hval, hv], hno _, fun bw h gs jgs h1 h2 h3 => ?_⟩
    rw [← Option.some.inj h, hval, key gs jgs h1 h2 h3]

/-- squaring, with its pullback -/
example : (torchify (fun l => l.map fun | .jax a => .jax (a * a) | x => x)
    (fun l => (l.map fun | .jax a => .jax (a * a) | x => x, fun gs => zipWith (fun | .jax a, .jax b => .jax (2 * a * b) | x, _ => x) l gs))
    true [.torch (3 : ℤ)]).1 = [.torch 9] := by decide +kernel

end
end Verif
