import Verif.Lemmas.Args
import Verif.Props.Layers

/-!
# C40: the constructor of a network, from the user's arguments to the equivariant function
-/
namespace Verif
open List

section
variable {W : World} {g : Gid} {N : ℕ} {custom : ∀ k g, AtomRep ℝ (W.d g) (W.usize k g)}
  {lie disc : ∀ g, List (Matrix (Fin (W.d g)) (Fin (W.d g)) ℝ)} {solve : ℕ → LinOp ℝ → Py (DMat ℝ)} {rng : Rng} {σ σ' : NetSt ℝ}
  {ein eout : Expr} {rin rout : Rep} {fuel b L : ℕ} {ch : Ch} {ws : List ℕ} {E : Emlp ℝ}

/-- **C40.** Whatever is passed for `ch` (an integer, a representation, or a list mixing both), the network returned by
`EMLP(rep_in,rep_out,G,ch,num_layers)` has the layer widths `ws` that `ch` asks for: the `i`-th block takes vectors of the
size the previous one produces, the first one takes `rep_in.size()` entries, the last layer yields `rep_out.size()`. -/
theorem C40_widths (hW : W.SingleOK g N) (hd : 2 ≤ W.d g) (hdN : W.d g ≤ N) (ok : GroupsOK W custom lie disc)
    (hsol : SolverOK W (gensOf W (stdAtoms W custom) lie disc) solve) (hσ : NetReach W g (gensOf W (stdAtoms W custom) lie disc) solve σ)
    (hrng : RngOK rng) (hin : RepArg W g N ein rin) (hout : RepArg W g N eout rout) (hch : ch.Widths W g N b L ws)
    (hbi : ein.dim W g ≤ b) (hbo : eout.dim W g ≤ b) (hbf : b < fuel) (hN : (2 * b) * (2 * b) ≤ N)
    (hE : Emlp.init W (gensOf W (stdAtoms W custom) lie disc) solve rng fuel rin rout g ch L σ = .ok (E, σ')) :
    E.repIn.size W = ein.dim W g ∧ E.repOut.size W = eout.dim W g ∧ E.hidden.map (Rep.size W) = ws ∧
    Forall₂ (fun (nm : ℕ × ℕ) B => B.lin.nin = nm.1 ∧ ∀ p : BlockParams ℝ, p.Shaped B → ∀ (c : ℝ) (act : ℝ → ℝ) (x y : List ℝ),
      x.length = nm.1 → B.apply W c act p x = .ok y → y.length = nm.2) ((ein.dim W g :: ws).zip ws) E.blocks ∧
    E.last.nin = ws.getLastD (ein.dim W g) ∧ E.last.nout = eout.dim W g ∧
    ∀ ps w β, E.Shaped ps w β → ∀ (c : ℝ) (act : ℝ → ℝ) (x y : List ℝ), x.length = ein.dim W g → E.apply W c act ps w β x = .ok y →
      y.length = eout.dim W g := by
  have hbN : b ≤ N := by nlinarith [Nat.zero_le b]
  obtain ⟨a, o, mids, ha, ho, hm, good⟩ :=
    (Emlp.init_meets hW hd hdN hrng hbN hbf hch gensOf_sized hsol hin hout hbi hbo hN σ (hσ.ok hsol) E σ' hE).2
  obtain ⟨f1, f2, f3⟩ := good.fields
  have hI := elem_dual (g := g) ok .one
  have hF := elem_fixes (g := g) ok .one
  have hP := elem_perm (g := g) ok .one
  refine ⟨by rw [f1, ha.2.1], by rw [f2, ho.2.1], by rw [f3, hm.1], ?_, ?_, ?_, ?_⟩
  · have key : ∀ (mids : List Rep) (a : Rep) (Bs : List (Block ℝ)), a.Over W g N → (∀ r ∈ mids, r.Over W g N) →
        Forall₂ (fun p B => Block.Good W g N (gensOf W (stdAtoms W custom) lie disc) p.1 p.2 B) ((a :: mids).zip mids) Bs →
        Forall₂ (fun (nm : ℕ × ℕ) B => B.lin.nin = nm.1 ∧ ∀ p : BlockParams ℝ, p.Shaped B → ∀ (c : ℝ) (act : ℝ → ℝ) (x y : List ℝ),
          x.length = nm.1 → B.apply W c act p x = .ok y → y.length = nm.2) ((a.size W :: mids.map (Rep.size W)).zip (mids.map (Rep.size W))) Bs := by
      intro mids
      induction mids with
      | nil => intro a Bs _ _ h; cases h; exact .nil
      | cons r t ih =>
        intro a Bs hoa hov h
        rw [zip_cons_cons] at h
        obtain ⟨B, Bs', hB, hBs, rfl⟩ := forall₂_cons_left_iff.1 h
        rw [map_cons, zip_cons_cons]
        refine .cons ⟨?_, fun p hp c act x y hx hy => ?_⟩ (ih r Bs' (hov r (by simp)) (fun q hq => hov q (by simp [hq])) hBs)
        · obtain ⟨g1, -, hl⟩ := hB.lin
          exact hl.nin
        · by_cases hc : r.CanonicalSum W
          · obtain ⟨z, h1, h2, -⟩ := hB.commutes hW hoa (hov r (by simp)) hc c act hp hI hF hP x hx
            rw [h1] at hy
            rw [← Except.ok.inj hy]; exact h2
          · obtain ⟨e, he⟩ := hB.raises (hov r (by simp)) hc c act p x
            rw [he] at hy; cases hy
    have := key mids a E.blocks ha.1 (fun r hr => (hm.2.1 r hr).1) good.blocks
    rw [ha.2.1, hm.1] at this
    exact this
  · rw [good.last.nin, ← hm.1, ← ha.2.1]
    have key : ∀ (l : List Rep) (a : Rep), (l.getLastD a).size W = (l.map (Rep.size W)).getLastD (a.size W) := by
      intro l
      induction l with
      | nil => intro a; rfl
      | cons r t ih => intro a; rw [getLastD_cons, map_cons, getLastD_cons, ih]
    exact key mids a
  · rw [good.last.nout, ho.2.1]
  · intro ps w β hp c act x y hx hy
    by_cases hc : ∀ r ∈ mids, r.CanonicalSum W
    · obtain ⟨z, h1, h2, -⟩ := good.commutes hW ha.1 ho.1 (fun r hr => ⟨(hm.2.1 r hr).1, hc r hr⟩) c act hI hF hP hp x (by rw [hx, ha.2.1])
      rw [h1] at hy
      rw [← Except.ok.inj hy, h2, ho.2.1]
    · push Not at hc
      obtain ⟨e, he⟩ := good.raises (fun r hr => (hm.2.1 r hr).1) hc c act hp.blocks.length_eq.symm x (w := w) (β := β)
      rw [he] at hy
      cases hy

/-- **C36 and C40, end to end.** The network is equivariant for the matrices of the two expressions the user wrote: whenever it
returns `y` on `x`, it returns `ρ_out(h)y` on `ρ_in(h)x`, for every `h` in the group generated by the exponentials of the Lie algebra
and the discrete generators, all values of the parameters, all random choices and every history of earlier calls. -/
theorem C40_equivariant (hW : W.SingleOK g N) (hd : 2 ≤ W.d g) (hdN : W.d g ≤ N) (ok : GroupsOK W custom lie disc)
    (hsol : SolverOK W (gensOf W (stdAtoms W custom) lie disc) solve) (hσ : NetReach W g (gensOf W (stdAtoms W custom) lie disc) solve σ)
    (hrng : RngOK rng) (hin : RepArg W g N ein rin) (hout : RepArg W g N eout rout) (hch : ch.Widths W g N b L ws)
    (hbi : ein.dim W g ≤ b) (hbo : eout.dim W g ≤ b) (hbf : b < fuel) (hN : (2 * b) * (2 * b) ≤ N)
    (hE : Emlp.init W (gensOf W (stdAtoms W custom) lie disc) solve rng fuel rin rout g ch L σ = .ok (E, σ'))
    {ps : List (BlockParams ℝ)} {w : DMat ℝ} {β : List ℝ} (hp : E.Shaped ps w β) (c : ℝ) (act : ℝ → ℝ)
    {h : Matrix (Fin (W.d g)) (Fin (W.d g)) ℝ} (hg : Generated (lie g) (disc g) h) {x y : List ℝ} (hx : x.length = ein.dim W g)
    (hy : E.apply W c act ps w β x = .ok y) :
      E.apply W c act ps w β ((ein.den g (Interp.elem W custom g h)).1.mulVec x) =
        .ok ((eout.den g (Interp.elem W custom g h)).1.mulVec y) := by
  have hbN : b ≤ N := by nlinarith [Nat.zero_le b]
  obtain ⟨a, o, mids, ha, ho, hm, good⟩ :=
    (Emlp.init_meets hW hd hdN hrng hbN hbf hch gensOf_sized hsol hin hout hbi hbo hN σ (hσ.ok hsol) E σ' hE).2
  have hI := elem_dual (g := g) ok hg
  rw [← ha.2.2 ℝ _ hI, ← ho.2.2 ℝ _ hI]
  by_cases hc : ∀ r ∈ mids, r.CanonicalSum W
  · obtain ⟨z, h1, h2, h3⟩ := good.commutes hW ha.1 ho.1 (fun r hr => ⟨(hm.2.1 r hr).1, hc r hr⟩) c act hI (elem_fixes ok hg) (elem_perm ok hg) hp x (by rw [hx, ha.2.1])
    rw [h1] at hy
    rw [← Except.ok.inj hy, h3]
  · push Not at hc
    obtain ⟨e, he⟩ := good.raises (fun r hr => (hm.2.1 r hr).1) hc c act hp.blocks.length_eq.symm x (w := w) (β := β)
    rw [he] at hy
    cases hy

/-- **C40, totality.** With integer channels, all at least 2, the constructor returns (unless the numerical routine raises)
and so does every call on a vector of the right length. -/
theorem C40_total (hW : W.SingleOK g N) (hd : 2 ≤ W.d g) (hdN : W.d g ≤ N) (ok : GroupsOK W custom lie disc)
    (hsol : SolverOK W (gensOf W (stdAtoms W custom) lie disc) solve) (ht : SolverRuns W (gensOf W (stdAtoms W custom) lie disc) solve)
    (hσ : NetReach W g (gensOf W (stdAtoms W custom) lie disc) solve σ)
    (hrng : RngOK rng) (hin : RepArg W g N ein rin) (hout : RepArg W g N eout rout) (hch : ch.Widths W g N b L ws) (hi : ch.Ints)
    (hbi : ein.dim W g ≤ b) (hbo : eout.dim W g ≤ b) (hbf : b < fuel) (hN : (2 * b) * (2 * b) ≤ N) :
    ∃ E σ', Emlp.init W (gensOf W (stdAtoms W custom) lie disc) solve rng fuel rin rout g ch L σ = .ok (E, σ') ∧
      ∀ ps w β, E.Shaped ps w β → ∀ (c : ℝ) (act : ℝ → ℝ) (x : List ℝ), x.length = ein.dim W g → ∃ y, E.apply W c act ps w β x = .ok y := by
  have hbN : b ≤ N := by nlinarith [Nat.zero_le b]
  obtain ⟨E, σ', hE⟩ := Emlp.init_runs hW hd hdN hrng hbN hbf hch gensOf_sized hsol hin hout hbi hbo hN ht hi σ (hσ.ok hsol)
  refine ⟨E, σ', hE, fun ps w β hp c act x hx => ?_⟩
  obtain ⟨a, o, mids, ha, ho, hm, good⟩ :=
    (Emlp.init_meets hW hd hdN hrng hbN hbf hch gensOf_sized hsol hin hout hbi hbo hN σ (hσ.ok hsol) E σ' hE).2
  obtain ⟨z, h1, -⟩ := good.commutes hW ha.1 ho.1 (fun r hr => ⟨(hm.2.1 r hr).1, hm.2.2 hi r hr⟩) c act (elem_dual (g := g) ok .one)
    (elem_fixes ok .one) (elem_perm ok .one) hp x (by rw [hx, ha.2.1])
  exact ⟨z, h1⟩

/-- **One channel.** `EMLP(rep_in,rep_out,G,1,num_layers)` never works: the constructor raises (the hidden representation is the
plain `Scalar`, which is not a direct sum). -/
theorem C40_one_channel (hW : W.SingleOK g N) (hd : 2 ≤ W.d g) (hdN : W.d g ≤ N)
    (hsol : SolverOK W (gensOf W (stdAtoms W custom) lie disc) solve) (hσ : NetReach W g (gensOf W (stdAtoms W custom) lie disc) solve σ)
    (hrng : RngOK rng) (hin : RepArg W g N ein rin) (hout : RepArg W g N eout rout) (hL : 1 ≤ L) (hb : 1 ≤ b)
    (hbi : ein.dim W g ≤ b) (hbo : eout.dim W g ≤ b) (hbf : b < fuel) (hN : (2 * b) * (2 * b) ≤ N) :
    ∃ e, Emlp.init W (gensOf W (stdAtoms W custom) lie disc) solve rng fuel rin rout g (.one (.int 1)) L σ = .error e := by
  have hbN : b ≤ N := by nlinarith [Nat.zero_le b]
  cases hr : Emlp.init W (gensOf W (stdAtoms W custom) lie disc) solve rng fuel rin rout g (.one (.int 1)) L σ with
  | error e => exact ⟨e, rfl⟩
  | ok Eσ =>
    exfalso
    have hm : NetM.Meets W g (gensOf W (stdAtoms W custom) lie disc)
        (Emlp.init W (gensOf W (stdAtoms W custom) lie disc) solve rng fuel rin rout g (.one (.int 1)) L) fun E =>
          ∃ a o, E.Good W g N (gensOf W (stdAtoms W custom) lie disc) a (replicate L (.key .scalar)) o := by
      rw [Emlp.init_eq]
      refine NetM.Meets.bind (hin.meets hW) fun a ha => NetM.Meets.bind (hout.meets hW) fun o ho =>
        NetM.Meets.bind (P := fun m => m = replicate L (.key .scalar)) ?_ fun m hm => ?_
      · refine NetM.Meets.bind (P := fun r => r = .key .scalar) ?_ fun r hr => NetM.Meets.pure (by rw [hr])
        refine NetM.Meets.bind NetM.Meets.draw fun t _ => NetM.Meets.rep fun x hx r y e => ?_
        rw [C37_one (by omega) (length_eq_zero_iff.1 (hrng.binomial t 0 0).1) (by omega)] at e
        obtain ⟨rfl, rfl⟩ := Prod.mk.inj (Except.ok.inj e)
        exact ⟨SgOK.some _ _, rfl⟩
      · subst hm
        intro σ hσ E σ' hE
        have hsc := over_scalar hW
        obtain ⟨h1, h2⟩ := Emlp.build_meets hW gensOf_sized hsol hrng (a := a) (o := o) (mids := replicate L (.key .scalar)) (b := 2 * b) (by
          intro r hr
          have g1 := Rep.gates_le hW ha.1
          have g2 := Rep.gates_le hW ho.1
          have g3 := Rep.gates_le hW hsc
          have e1 := ha.2.1
          have e2 := ho.2.1
          have e3 : (Rep.key .scalar).size W = 1 := rfl
          simp only [mem_cons, mem_replicate] at hr
          rcases hr with rfl | rfl | ⟨-, rfl⟩
          · exact ⟨ha.1, by omega⟩
          · exact ⟨ho.1, by omega⟩
          · exact ⟨hsc, by omega⟩) hN σ hσ E σ' hE
        exact ⟨h1, a, o, h2⟩
    obtain ⟨-, a, o, good⟩ := hm σ (hσ.ok hsol) Eσ.1 Eσ.2 hr
    obtain ⟨L, rfl⟩ := Nat.exists_eq_add_of_le' hL
    have hb := good.blocks
    rw [replicate_succ, zip_cons_cons] at hb
    obtain ⟨B, Bs', hB, -, -⟩ := forall₂_cons_left_iff.1 hb
    have := hB.sum _ rfl
    simp [Key.isPerm] at this

end

/-! A case: `EMLP(V,Scalar,G,[12,7],_)` for the group with the rotations about the third axis, `V` and `Scalar` written without a
group; widths `3 → 12 → 7 → 1`. -/

example : ∃ (solve : ℕ → LinOp ℝ → Py (DMat ℝ)) (rng : Rng) (E : Emlp ℝ) (σ' : NetSt ℝ),
    SolverOK exW (gensOf exW (stdAtoms exW fun k g => trivialAtom _ _) rotLies fun _ => []) solve ∧ RngOK rng ∧
    RepArg exW 0 576 (.rep 0) Rep.V ∧ RepArg exW 0 576 .scalar (.key .scalar) ∧
    Ch.Widths exW 0 576 12 0 (.list [.int 12, .int 7]) [12, 7] ∧
    Emlp.init exW (gensOf exW (stdAtoms exW fun k g => trivialAtom _ _) rotLies fun _ => []) solve rng 13 Rep.V (.key .scalar) 0
      (.list [.int 12, .int 7]) 0 ⟨freshSt, none, 0⟩ = .ok (E, σ') := by
  obtain ⟨s, h1, h2⟩ := exists_solver ℝ
  obtain ⟨rng, hr⟩ := exists_rng
  have ha : RepArg exW 0 576 (.rep 0) Rep.V := ⟨⟨by decide, Or.inl rfl⟩, by decide, Or.inl rfl⟩
  have ho : RepArg exW 0 576 .scalar (.key .scalar) := ⟨trivial, by decide, Or.inl rfl⟩
  have hc : Ch.Widths exW 0 576 12 0 (.list [.int 12, .int 7]) [12, 7] :=
    .list _ _ (.cons (.int 12 (by decide) (by decide)) (.cons (.int 7 (by decide) (by decide)) .nil))
  have hσ : NetReach exW 0 (gensOf exW (stdAtoms exW fun k g => trivialAtom _ _) rotLies fun _ => []) (fun _ => s) ⟨freshSt, none, 0⟩ :=
    .start none 0 fun h e => by simp at e
  obtain ⟨E, σ', hE, -⟩ := C40_total (L := 0) (fuel := 13) (exW_single 0 576 (by decide)) (by decide) (by decide) rot_groups (h1 _ _) (fun _ _ C _ => h2 C) hσ hr ha ho hc
    (.list _ fun c hc => by
      simp only [mem_cons, not_mem_nil, or_false] at hc
      rcases hc with rfl | rfl
      · exact ⟨12, by decide, rfl⟩
      · exact ⟨7, by decide, rfl⟩) (by decide) (by decide) (by decide) (by decide)
  exact ⟨_, rng, E, σ', h1 _ _, hr, ha, ho, hc, hE⟩

end Verif
