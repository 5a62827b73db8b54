import Verif.Lemmas.MultiLayer
import Verif.Lemmas.SolverExists
import Verif.Props.Direct
import Verif.Props.Gate

/-!
# Layers between representations of several groups (C30, C33)
-/
namespace Verif
open List

section
variable {W : World} {Γ : Gid → Prop} {κ : Gid → ℕ} {g0 : Gid} {N : ℕ} {custom : ∀ k g, AtomRep ℝ (W.d g) (W.usize k g)}
  {lie disc : ∀ g, List (Matrix (Fin (W.d g)) (Fin (W.d g)) ℝ)} {solve : ℕ → LinOp ℝ → Py (DMat ℝ)} {σ : NetSt ℝ}

/-- **C30, several groups.** A linear layer between representations written with representations of several groups flagged orthogonal, e.g.
`V(G)*V(H)+Scalar → V(H)*V(G)*V(H)`, built after any history, commutes with all groups at once: an element `M g` of each group (only finitely
many of them not the identity) may be chosen independently.  Building it succeeds unless the numerical routine raises. -/
theorem C30_linear_groups (hW : W.MultiOK Γ κ g0 N) (horth : ∀ g, Γ g → W.orth g = true) (ok : GroupsOK W custom lie disc)
    (hsol : SolverOK W (gensOf W (stdAtoms W custom) lie disc) solve) (hσ : NetReach W g0 (gensOf W (stdAtoms W custom) lie disc) solve σ)
    {ein eout : MExpr} (hin : ein.OK W Γ g0) (hout : eout.OK W Γ g0) (hbi : ein.bound W κ ≤ N) (hbo : eout.bound W κ ≤ N)
    (hN : eout.dim W κ * ein.dim W κ ≤ N) :
    ∃ a o, ein.eval W κ = .ok a ∧ eout.eval W κ = .ok o ∧
    (∀ L σ', LinearL.init W (gensOf W (stdAtoms W custom) lie disc) solve a o σ = .ok (L, σ') →
      ∀ (w : DMat ℝ) (b : List ℝ), w.rows = eout.dim W κ → w.cols = ein.dim W κ → b.length = eout.dim W κ →
      ∀ M : ∀ g, Matrix (Fin (W.d g)) (Fin (W.d g)) ℝ, (∀ g, Generated (lie g) (disc g) (M g)) → ∀ gs : List Gid, (∀ g ∉ gs, M g = 1) →
        Commutes (ein.dim W κ) (eout.dim W κ) (L.apply w b) (ein.den κ (Interp.at W (stdAtoms W custom) M)).1
          (eout.den κ (Interp.at W (stdAtoms W custom) M)).1) ∧
    (SolverRuns W (gensOf W (stdAtoms W custom) lie disc) solve →
      ∃ L σ', LinearL.init W (gensOf W (stdAtoms W custom) lie disc) solve a o σ = .ok (L, σ')) := by
  obtain ⟨a, a1, a2, a3, a4, a5⟩ := MExpr.eval_good hW ein hin hbi
  obtain ⟨o, o1, o2, o3, o4, o5⟩ := MExpr.eval_good hW eout hout hbo
  have ha : a.MOver W Γ κ g0 N := ⟨a2, a3⟩
  have ho : o.MOver W Γ κ g0 N := ⟨o2, o3⟩
  have hN' : o.size W * a.size W ≤ N := by rw [a4, o4]; exact hN
  refine ⟨a, o, a1, o1, fun L σ' hL w b h1 h2 h3 M hM gs hgs => ?_, fun ht =>
    LinearL.init_runs_multi hW horth gensOf_sized hsol ha ho ht hN' σ (hσ.ok hsol)⟩
  have good := (LinearL.init_meets_multi hW horth gensOf_sized hsol ha ho hN' σ (hσ.ok hsol) L σ' hL).2
  have hI := at_dual ok hM
  rw [← a5 ℝ _ hI, ← o5 ℝ _ hI, ← a4, ← o4]
  exact good.commutes o2 hI a2 (at_fixes ok hM hgs) (by rw [h1, o4]) (by rw [h2, a4]) (by rw [h3, o4])

end

section
variable {W : World}

theorem gateScalars_raises {d : DRep} : ∀ (l : List Key) (x : Option Gid), Key.dprod d ∈ l → gateScalars W x l = .error .attribute
  | [], _, h => by simp at h
  | k :: t, x, h => by
    unfold gateScalars
    cases k with
    | scalar =>
      show (gateScalars W _ t >>= _) = _
      rw [gateScalars_raises t _ (by simpa using h)]
      rfl
    | fac f =>
      show (gateScalars W _ t >>= _) = _
      rw [gateScalars_raises t _ (by simpa using h)]
      rfl
    | dprod d' => rfl

/-- **C33, several groups.** A product over several groups has no attribute `G`: `gated` raises `AttributeError` for it, and for every sum in which
it occurs, unless all its groups act by permutations. -/
theorem C33_products_raise {d : DRep} (hp : (Key.dprod d).isPerm W = false) (x : Option Gid) :
    gated W (.key (.dprod d)) x = .error .attribute ∧
    ∀ s : SRep, Key.dprod d ∈ s.c.expand → gated W (.sum s) x = .error .attribute := by
  constructor
  · show (if (Key.dprod d).isPerm W = true then _ else _) = _
    rw [if_neg (by simp [hp])]
  · intro s hs
    show (gateScalars W x (s.c.expand.filter (Key.needsGate W)) >>= _) = _
    rw [gateScalars_raises (d := d) _ _ (mem_filter.2 ⟨hs, by simp [Key.needsGate, hp]⟩)]
    rfl

/-- **C33.** Hence no `EMLPBlock` can be built with such a representation as its output. -/
theorem C33_no_block {R : Type} [CommRing R] {gens : Gid → GenSet R} {solve : ℕ → LinOp R → Py (DMat R)} {rng : Rng} {d : DRep}
    (hp : (Key.dprod d).isPerm W = false) (repIn : Rep) (σ : NetSt R) {s : SRep} (hs : Key.dprod d ∈ s.c.expand) :
    Block.init W gens solve rng repIn (.sum s) σ = .error .attribute ∧ Block.init W gens solve rng repIn (.key (.dprod d)) σ = .error .attribute := by
  have h := C33_products_raise hp σ.sg
  constructor
  · show (NetM.rep (gated W (.sum s)) σ >>= _) = _
    simp only [NetM.rep, h.2 s hs, bind, Except.bind]
  · show (NetM.rep (gated W (.key (.dprod d))) σ >>= _) = _
    simp only [NetM.rep, h.1, bind, Except.bind]

end

/-- The hypotheses of `C30_linear_groups` are met: the layer `V(G0)*V(G3) + Scalar → V(G3)*V(G0) + V(G0)`, and a rotation in the first group. -/
example : ∃ (solve : ℕ → LinOp ℝ → Py (DMat ℝ)) (a o : Rep) (L : LinearL ℝ) (σ' : NetSt ℝ),
    SolverOK exW (gensOf exW (stdAtoms exW fun k g => trivialAtom _ _) rotLies fun _ => []) solve ∧
    (∀ g, g = 0 ∨ g = 3 → exW.orth g = true) ∧
    MExpr.eval exW (fun _ => 0) (.add (.of (.mul (.rep 0) (.rep 3))) (.of .scalar)) = .ok a ∧
    MExpr.eval exW (fun _ => 0) (.add (.of (.mul (.rep 3) (.rep 0))) (.of (.rep 0))) = .ok o ∧
    LinearL.init exW (gensOf exW (stdAtoms exW fun k g => trivialAtom _ _) rotLies fun _ => []) solve a o ⟨freshSt, none, 0⟩ = .ok (L, σ') ∧
    Generated (rotLies 0) [] (NormedSpace.exp (rotLie (exW.d 0))) := by
  obtain ⟨s, h1, h2⟩ := exists_solver ℝ
  have ho : ∀ g, g = 0 ∨ g = 3 → exW.orth g = true := by rintro g (rfl | rfl) <;> decide
  have hσ : NetReach exW 0 (gensOf exW (stdAtoms exW fun k g => trivialAtom _ _) rotLies fun _ => []) (fun _ => s) ⟨freshSt, none, 0⟩ :=
    .start none 0 fun h e => by simp at e
  obtain ⟨a, o, ha, ho', -, hr⟩ := C30_linear_groups (exW_multi 1000 (by omega)) ho rot_groups (h1 _ _) hσ
    (ein := .add (.of (.mul (.rep 0) (.rep 3))) (.of .scalar)) (eout := .add (.of (.mul (.rep 3) (.rep 0))) (.of (.rep 0)))
    (by simp [MExpr.OK, Mono.groups]) (by simp [MExpr.OK, Mono.groups]) (by decide +kernel) (by decide +kernel) (by decide +kernel)
  obtain ⟨L, σ', hL⟩ := hr fun _ _ C _ => h2 C
  refine ⟨fun _ => s, a, o, L, σ', h1 _ _, ho, ha, ho', hL, .exp (Submodule.subset_span ?_)⟩
  simp [rotLies]

/-- `C33_products_raise` applies: `gated(V(G0)*V(G3))` raises. -/
example : ∃ d, Rep.mul exW (.key (.fac (.atom (.vec 0 (some 0))))) (.key (.fac (.atom (.vec 0 (some 3))))) = .ok (.key (.dprod d)) ∧
    (Key.dprod d).isPerm exW = false := by
  obtain ⟨d, hd, -⟩ := C04_pair (W := exW) (f := .atom (.vec 0 (some 0))) (g := .atom (.vec 0 (some 3))) rfl rfl (by decide)
  refine ⟨d, hd, ?_⟩
  have e : (match Rep.mul exW (.key (.fac (.atom (.vec 0 (some 0))))) (.key (.fac (.atom (.vec 0 (some 3))))) with
    | .ok (.key k) => k.isPerm exW
    | _ => true) = false := by decide +kernel
  rw [hd] at e
  exact e

end Verif
