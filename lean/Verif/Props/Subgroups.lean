import Verif.Props.Coordinates
import Verif.Props.Universal

/-! C133: what a network for a group computes, a network of the same shape for any smaller group computes as well. -/
namespace Verif
open List

section
variable {W : World} {g : Gid} {N : ℕ} {custom : ∀ k g, AtomRep ℝ (W.d g) (W.usize k g)} {lie disc lie' disc' : ∀ g, List (Matrix (Fin (W.d g)) (Fin (W.d g)) ℝ)}
  {a b : Rep}

/-- The weight that a layer multiplies by. -/
noncomputable def LinearL.weight (L : LinearL ℝ) (w : DMat ℝ) : DMat ℝ := DMat.unflat w.rows w.cols (L.Pw.sem.mulVec w.flat)

/-- The weight and bias that a layer uses, as parameters of another layer. -/
noncomputable def BlockParams.used (B : Block ℝ) (p : BlockParams ℝ) : BlockParams ℝ := ⟨B.lin.weight p.w, B.lin.Pb.sem.mulVec p.b, p.bw⟩

/-- Linear layers: `L` for the smaller group, `L'` for the larger one. -/
theorem LinearL.restrict (ok : GroupsOK W custom lie disc) (ok' : GroupsOK W custom lie' disc')
    (hsub : ∀ h, Generated (lie g) (disc g) h → Generated (lie' g) (disc' g) h) (hb : b.Over W g N) {L L' : LinearL ℝ}
    (h : L.Exact W g N (gensOf W (stdAtoms W custom) lie disc) a b) (h' : L'.Exact W g N (gensOf W (stdAtoms W custom) lie' disc') a b)
    {w : DMat ℝ} {β : List ℝ} (hw : w.rows = L'.nout) (hw' : w.cols = L'.nin) (hβ : β.length = L'.nout) (x : List ℝ) :
    (L'.weight w).rows = L.nout ∧ (L'.weight w).cols = L.nin ∧ (L'.Pb.sem.mulVec β).length = L.nout ∧
    L.apply (L'.weight w) (L'.Pb.sem.mulVec β) x = L'.apply w β x := by
  rw [h'.nout] at hw hβ
  rw [h'.nin] at hw'
  obtain ⟨r, hr, hz, hint, hp⟩ := h.w
  obtain ⟨r', hr', hz', hint', hp'⟩ := h'.w
  have r1 : (L'.weight w).rows = b.size W := hw
  have r2 : (L'.weight w).cols = a.size W := hw'
  have r3 : (L'.Pb.sem.mulVec β).length = b.size W := by rw [DMat.length_mulVec, h'.b.sq.1]
  have hfl : (L'.weight w).flat = L'.Pw.sem.mulVec w.flat := DMat.unflat_flat (by rw [DMat.length_mulVec, hp'.sq.1, hz', hw, hw'])
  have hlen : (L'.weight w).flat.length = b.size W * a.size W := by rw [DMat.length_flat, r1, r2]
  have e1 : L.weight (L'.weight w) = L'.weight w := by
    have hf : r.Fixed W (gensOf W (stdAtoms W custom) lie disc) (L'.weight w).flat := by
      rw [fixed_iff_group ok hr (by rw [hlen, hz])]
      intro k hk
      refine (hint _ (elem_dual ok hk) _ r1 r2).2 ((hint' _ (elem_dual ok hk) _ r1 r2).1 ?_)
      have h2 : r'.Fixed W (gensOf W (stdAtoms W custom) lie' disc') (L'.weight w).flat := by
        rw [hfl]
        exact hp'.range _ (by rw [DMat.length_flat, hw, hw', hz'])
      exact (fixed_iff_group ok' hr' (by rw [hlen, hz'])).1 h2 k (hsub k hk)
    show DMat.unflat _ _ (L.Pw.sem.mulVec (L'.weight w).flat) = _
    rw [(hp.fix _ (by rw [hlen, hz])).1 hf]
    exact DMat.flat_unflat _
  have e2 : L.Pb.sem.mulVec (L'.Pb.sem.mulVec β) = L'.Pb.sem.mulVec β := by
    refine (h.b.fix _ r3).1 ((fixed_iff_group ok hb r3).2 fun k hk => ?_)
    exact (fixed_iff_group ok' hb r3).1 (h'.b.range _ hβ) k (hsub k hk)
  refine ⟨by rw [r1, h.nout], by rw [r2, h.nin], by rw [r3, h.nout], ?_⟩
  unfold LinearL.apply
  rw [h.nin, h.nout, h'.nin, h'.nout]
  by_cases hx : x.length = a.size W
  · rw [if_pos ⟨r1, r2, r3, hx⟩, if_pos ⟨hw, hw', hβ, hx⟩, e2]
    show Except.ok (zipWith _ ((L.weight (L'.weight w)).mulVec x) _) = _
    rw [e1]
    rfl
  · rw [if_neg fun q => hx q.2.2.2, if_neg fun q => hx q.2.2.2]

/-- Blocks. -/
theorem Block.Paired.restrict (ok : GroupsOK W custom lie disc) (ok' : GroupsOK W custom lie' disc')
    (hsub : ∀ h, Generated (lie g) (disc g) h → Generated (lie' g) (disc' g) h) {r : Rep} {B B' : Block ℝ}
    (h : Block.Paired W g N (gensOf W (stdAtoms W custom) lie disc) (gensOf W (stdAtoms W custom) lie' disc') a r B B') {p : BlockParams ℝ} (hp : p.Shaped B') :
    (p.used B').Shaped B ∧ ∀ (c : ℝ) (act : ℝ → ℝ), B.apply W c act (p.used B') = B'.apply W c act p := by
  obtain ⟨g1, h1, hl, hl'⟩ := h.lin
  have := LinearL.restrict ok ok' hsub h1.over hl hl' hp.rows hp.cols hp.b
  refine ⟨⟨(this []).1, (this []).2.1, (this []).2.2.1, by rw [h.bil]; exact hp.bw⟩, fun c act => funext fun x => ?_⟩
  unfold Block.apply
  show (B.lin.apply (B'.lin.weight p.w) (B'.lin.Pb.sem.mulVec p.b) x >>= _) = _
  rw [(this x).2.2.2, h.rep, h.rep', h.bil]
  rfl

/-- The blocks of a network. -/
theorem blocks_restrict (ok : GroupsOK W custom lie disc) (ok' : GroupsOK W custom lie' disc')
    (hsub : ∀ h, Generated (lie g) (disc g) h → Generated (lie' g) (disc' g) h) {l : List (Rep × Rep)} {Bs Bs' : List (Block ℝ)}
    (h : All3 (fun p B B' => Block.Paired W g N (gensOf W (stdAtoms W custom) lie disc) (gensOf W (stdAtoms W custom) lie' disc') p.1 p.2 B B') l Bs Bs')
    {ps : List (BlockParams ℝ)} (hps : Forall₂ BlockParams.Shaped Bs' ps) :
    Forall₂ BlockParams.Shaped Bs (zipWith (fun B p => p.used B) Bs' ps) ∧
    ∀ (c : ℝ) (act : ℝ → ℝ), applyBlocks W c act (Bs.zip (zipWith (fun B p => p.used B) Bs' ps)) = applyBlocks W c act (Bs'.zip ps) := by
  induction h generalizing ps with
  | nil => cases hps; exact ⟨.nil, fun _ _ => rfl⟩
  | cons hB _ ih =>
    obtain ⟨p, ps', hp, hps', rfl⟩ := forall₂_cons_left_iff.1 hps
    obtain ⟨i1, i2⟩ := ih hps'
    obtain ⟨j1, j2⟩ := hB.restrict ok ok' hsub hp
    refine ⟨.cons j1 i1, fun c act => funext fun x => ?_⟩
    simp only [zipWith_cons_cons, zip_cons_cons, applyBlocks]
    rw [j2, i2]

variable {solve solve' : ℕ → LinOp ℝ → Py (DMat ℝ)} {σ σ' τ τ' : NetSt ℝ} {rng : Rng} {ein eout : Expr} {rin rout : Rep} {ch : Ch} {ws : List ℕ} {bd L fuel : ℕ}
  {E E' : Emlp ℝ}

/-- **C133.** Let the first group be contained in the second.  For every choice of the parameters of a network for the second, there are parameters for which the
network for the first, built from the same arguments with the same random draws, is the same function (it returns the same outputs, and raises for the same
inputs). -/
theorem C133_subgroup (hW : W.SingleOK g N) (hd : 2 ≤ W.d g) (hdN : W.d g ≤ N) (ok : GroupsOK W custom lie disc) (ok' : GroupsOK W custom lie' disc')
    (hsub : ∀ h, Generated (lie g) (disc g) h → Generated (lie' g) (disc' g) h)
    (hsol : SolverOK W (gensOf W (stdAtoms W custom) lie disc) solve) (hsol' : SolverOK W (gensOf W (stdAtoms W custom) lie' disc') solve')
    (hσ : NetReach W g (gensOf W (stdAtoms W custom) lie disc) solve σ) (hτ : NetReach W g (gensOf W (stdAtoms W custom) lie' disc') solve' τ)
    (hsg : σ.sg = τ.sg) (hdr : σ.draws = τ.draws)
    (hrng : RngOK rng) (hin : RepArg W g N ein rin) (hout : RepArg W g N eout rout) (hch : ch.Widths W g N bd L ws)
    (hbi : ein.dim W g ≤ bd) (hbo : eout.dim W g ≤ bd) (hbf : bd < fuel) (hN : (2 * bd) * (2 * bd) ≤ N)
    (hE : Emlp.init W (gensOf W (stdAtoms W custom) lie disc) solve rng fuel rin rout g ch L σ = .ok (E, σ'))
    (hE' : Emlp.init W (gensOf W (stdAtoms W custom) lie' disc') solve' rng fuel rin rout g ch L τ = .ok (E', τ')) :
    ∀ ps w β, E'.Shaped ps w β → ∃ ps₁ w₁ β₁, E.Shaped ps₁ w₁ β₁ ∧ ∀ (c : ℝ) (act : ℝ → ℝ) (x : List ℝ), E.apply W c act ps₁ w₁ β₁ x = E'.apply W c act ps w β x := by
  intro ps w β hp
  obtain ⟨a, o, mids, -, ho, -, pr⟩ := Emlp.init_pair hW hd hdN hsol hsol' hσ hτ hsg hdr hrng hin hout hch hbi hbo hbf hN hE hE'
  obtain ⟨b1, b2⟩ := blocks_restrict ok ok' hsub pr.blocks hp.blocks
  have hl := LinearL.restrict ok ok' hsub ho.1 pr.last pr.last' hp.rows hp.cols hp.b
  refine ⟨_, _, _, ⟨b1, (hl []).1, (hl []).2.1, (hl []).2.2.1⟩, fun c act x => ?_⟩
  unfold Emlp.apply
  rw [b2]
  exact congrArg _ (funext fun y => (hl y).2.2.2)

end

/-! ## The group generated by two groups -/
section
variable {W : World} {g : Gid} {N : ℕ} {custom : ∀ k g, AtomRep ℝ (W.d g) (W.usize k g)} {lie disc lie' disc' : ∀ g, List (Matrix (Fin (W.d g)) (Fin (W.d g)) ℝ)}
  {solve solve' solve'' : ℕ → LinOp ℝ → Py (DMat ℝ)} {σ σ' σ'' : NetSt ℝ} {a o : Rep}

theorem fixed_appendGens (r : Rep) (v : List ℝ) : r.Fixed W (gensOf W (stdAtoms W custom) (fun g => lie g ++ lie' g) fun g => disc g ++ disc' g) v ↔
    r.Fixed W (gensOf W (stdAtoms W custom) lie disc) v ∧ r.Fixed W (gensOf W (stdAtoms W custom) lie' disc') v := by
  simp only [Rep.Fixed, FixedBy, gensOf, map_append, forall_mem_append]
  exact ⟨fun h => ⟨fun g => ⟨(h g).1.1, (h g).2.1⟩, fun g => ⟨(h g).1.2, (h g).2.2⟩⟩, fun h g => ⟨⟨(h.1 g).1, (h.2 g).1⟩, ⟨(h.1 g).2, (h.2 g).2⟩⟩⟩

/-- **C133.** The group given by the generators of two groups together: the layer for it computes a function (for some weight and bias) if and only if the layers
for both of the groups do. -/
theorem C133_generated (hW : W.SingleOK g N) (ok : GroupsOK W custom lie disc) (ok' : GroupsOK W custom lie' disc')
    (ok'' : GroupsOK W custom (fun g => lie g ++ lie' g) fun g => disc g ++ disc' g)
    (hsol : SolverOK W (gensOf W (stdAtoms W custom) lie disc) solve) (hsol' : SolverOK W (gensOf W (stdAtoms W custom) lie' disc') solve')
    (hsol'' : SolverOK W (gensOf W (stdAtoms W custom) (fun g => lie g ++ lie' g) fun g => disc g ++ disc' g) solve'')
    (hσ : NetReach W g (gensOf W (stdAtoms W custom) lie disc) solve σ) (hσ' : NetReach W g (gensOf W (stdAtoms W custom) lie' disc') solve' σ')
    (hσ'' : NetReach W g (gensOf W (stdAtoms W custom) (fun g => lie g ++ lie' g) fun g => disc g ++ disc' g) solve'' σ'')
    (ha : a.Over W g N) (ho : o.Over W g N) (hN : o.size W * a.size W ≤ N) {L L' L'' : LinearL ℝ} {τ τ' τ'' : NetSt ℝ}
    (hL : LinearL.init W (gensOf W (stdAtoms W custom) lie disc) solve a o σ = .ok (L, τ))
    (hL' : LinearL.init W (gensOf W (stdAtoms W custom) lie' disc') solve' a o σ' = .ok (L', τ'))
    (hL'' : LinearL.init W (gensOf W (stdAtoms W custom) (fun g => lie g ++ lie' g) fun g => disc g ++ disc' g) solve'' a o σ'' = .ok (L'', τ''))
    (f : List ℝ → List ℝ) :
    (∃ (w : DMat ℝ) (b : List ℝ), w.rows = o.size W ∧ w.cols = a.size W ∧ b.length = o.size W ∧ ∀ x : List ℝ, x.length = a.size W → L''.apply w b x = .ok (f x)) ↔
    (∃ (w : DMat ℝ) (b : List ℝ), w.rows = o.size W ∧ w.cols = a.size W ∧ b.length = o.size W ∧ ∀ x : List ℝ, x.length = a.size W → L.apply w b x = .ok (f x)) ∧
    (∃ (w : DMat ℝ) (b : List ℝ), w.rows = o.size W ∧ w.cols = a.size W ∧ b.length = o.size W ∧ ∀ x : List ℝ, x.length = a.size W → L'.apply w b x = .ok (f x)) := by
  have s1 : ∀ h, Generated (lie g) (disc g) h → Generated (lie g ++ lie' g) (disc g ++ disc' g) h := fun h hh =>
    hh.mono (fun A hA => Submodule.span_mono (fun A hA => mem_append_left _ hA) hA) (fun A hA => mem_append_left _ hA)
  have s2 : ∀ h, Generated (lie' g) (disc' g) h → Generated (lie g ++ lie' g) (disc g ++ disc' g) h := fun h hh =>
    hh.mono (fun A hA => Submodule.span_mono (fun A hA => mem_append_right _ hA) hA) (fun A hA => mem_append_right _ hA)
  have c1 := C104_layers hW ok hsol hσ ha ho hN hL f
  have c2 := C104_layers hW ok' hsol' hσ' ha ho hN hL' f
  constructor
  · intro h
    obtain ⟨h1, h2⟩ := (C104_layers hW ok'' hsol'' hσ'' ha ho hN hL'' f).1 h
    exact ⟨c1.2 ⟨h1, fun h hh => h2 h (s1 h hh)⟩, c2.2 ⟨h1, fun h hh => h2 h (s2 h hh)⟩⟩
  · rintro ⟨h1, h2⟩
    obtain ⟨⟨M, c, hM, hM', hc, hf⟩, e1⟩ := c1.1 h1
    obtain ⟨-, e2⟩ := c2.1 h2
    obtain ⟨nin, nout, ⟨r, hr, hz, hint, hPw⟩, hPb⟩ := (LinearL.init_exact hW gensOf_sized hsol'' ha ho hN σ'' (hσ''.ok hsol'') L'' τ'' hL'').2
    have k1 := fun h hh => affine_commutes hM hM' hc (Rep.mat_sq (at_sized _) ha.wf) (Rep.mat_sq (at_sized _) ho.wf) hf (e1 h hh)
    have k2 := fun h hh => affine_commutes hM hM' hc (Rep.mat_sq (at_sized _) ha.wf) (Rep.mat_sq (at_sized _) ho.wf) hf (e2 h hh)
    have hl : M.flat.length = r.size W := by rw [DMat.length_flat, hM, hM', hz]
    have hw : L''.Pw.sem.mulVec M.flat = M.flat := (hPw.fix _ hl).1 ((fixed_appendGens r _).2
      ⟨(fixed_iff_group ok hr hl).2 fun h hh => (hint _ (elem_dual ok hh) M hM hM').2 (k1 h hh).1,
       (fixed_iff_group ok' hr hl).2 fun h hh => (hint _ (elem_dual ok' hh) M hM hM').2 (k2 h hh).1⟩)
    have hb : L''.Pb.sem.mulVec c = c := (hPb.fix _ hc).1 ((fixed_appendGens o _).2
      ⟨(fixed_iff_group ok ho hc).2 fun h hh => (k1 h hh).2, (fixed_iff_group ok' ho hc).2 fun h hh => (k2 h hh).2⟩)
    refine ⟨M, c, hM, hM', hc, fun x hx => ?_⟩
    unfold LinearL.apply
    rw [if_pos ⟨by rw [hM, nout], by rw [hM', nin], by rw [hc, nout], by rw [hx, nin]⟩, hw, hb, hf x hx, DMat.flat_unflat]

end

/-! ## The rotations about one axis and all rotations -/

/-- rotations about two axes: they generate all rotations -/
noncomputable def twoLies (g : Gid) : List (Matrix (Fin (exW.d g)) (Fin (exW.d g)) ℝ) := rotLies g ++ turnLies g

theorem two_groups : GroupsOK exW (fun k g => trivialAtom _ _) twoLies fun _ => [] where
  unit g h hh := by simp at hh
  orth g hg := ⟨fun A hA => (mem_append.1 hA).elim ((rot_groups.orth g hg).1 A) ((turn_groups.orth g hg).1 A), by simp⟩
  hom _ _ := trivialAtom_hom _ _
  user k g _ M _ := by simp [trivialAtom]
  perm g hg := by
    have : g = 2 := by simpa [exW] using hg
    subst this
    exact ⟨rfl, by simp⟩

example : ∃ (solve : ℕ → LinOp ℝ → Py (DMat ℝ)) (rng : Rng) (E E' : Emlp ℝ) (σ' τ' : NetSt ℝ),
    (∀ h, Generated (rotLies 0) [] h → Generated (twoLies 0) [] h) ∧
    SolverOK exW (gensOf exW (stdAtoms exW fun k g => trivialAtom _ _) rotLies fun _ => []) solve ∧
    SolverOK exW (gensOf exW (stdAtoms exW fun k g => trivialAtom _ _) twoLies fun _ => []) solve ∧
    RngOK rng ∧
    RepArg exW 0 576 (.rep 0) Rep.V ∧ RepArg exW 0 576 .scalar (.key .scalar) ∧ Ch.Widths exW 0 576 12 0 (.list [.int 12, .int 7]) [12, 7] ∧
    Emlp.init exW (gensOf exW (stdAtoms exW fun k g => trivialAtom _ _) rotLies fun _ => []) solve rng 13 Rep.V (.key .scalar) 0
      (.list [.int 12, .int 7]) 0 ⟨freshSt, none, 0⟩ = .ok (E, σ') ∧
    Emlp.init exW (gensOf exW (stdAtoms exW fun k g => trivialAtom _ _) twoLies fun _ => []) solve rng 13 Rep.V (.key .scalar) 0
      (.list [.int 12, .int 7]) 0 ⟨freshSt, none, 0⟩ = .ok (E', τ') ∧
    ∀ ps w β, E'.Shaped ps w β → ∃ ps₁ w₁ β₁, E.Shaped ps₁ w₁ β₁ ∧
      ∀ (c : ℝ) (act : ℝ → ℝ) (x : List ℝ), E.apply exW c act ps₁ w₁ β₁ x = E'.apply exW c act ps w β x := by
  obtain ⟨s, h1, h2⟩ := exists_solver ℝ
  obtain ⟨rng, hr⟩ := exists_rng
  have ha : RepArg exW 0 576 (.rep 0) Rep.V := ⟨⟨by decide, Or.inl rfl⟩, by decide, Or.inl rfl⟩
  have ho : RepArg exW 0 576 .scalar (.key .scalar) := ⟨trivial, by decide, Or.inl rfl⟩
  have hc : Ch.Widths exW 0 576 12 0 (.list [.int 12, .int 7]) [12, 7] :=
    .list _ _ (.cons (.int 12 (by decide) (by decide)) (.cons (.int 7 (by decide) (by decide)) .nil))
  have hi : (Ch.list [.int 12, .int 7]).Ints := .list _ fun c hc => by
      simp only [mem_cons, not_mem_nil, or_false] at hc
      rcases hc with rfl | rfl
      · exact ⟨12, by decide, rfl⟩
      · exact ⟨7, by decide, rfl⟩
  have hσ : ∀ (gs : Gid → GenSet ℝ) sol, NetReach exW 0 gs sol ⟨freshSt, none, 0⟩ := fun _ _ => .start none 0 fun h e => by simp at e
  obtain ⟨E, σ', hE, -⟩ := C40_total (L := 0) (fuel := 13) (exW_single 0 576 (by decide)) (by decide) (by decide) rot_groups (h1 _ _) (fun _ _ C _ => h2 C) (hσ _ _)
    hr ha ho hc hi (by decide) (by decide) (by decide) (by decide)
  obtain ⟨E', τ', hE', -⟩ := C40_total (L := 0) (fuel := 13) (exW_single 0 576 (by decide)) (by decide) (by decide) two_groups (h1 _ _) (fun _ _ C _ => h2 C) (hσ _ _)
    hr ha ho hc hi (by decide) (by decide) (by decide) (by decide)
  have hsub : ∀ h, Generated (rotLies 0) [] h → Generated (twoLies 0) [] h := fun h hh =>
    hh.mono (fun A hA => Submodule.span_mono (fun A hA => mem_append_left _ hA) hA) (by simp)
  exact ⟨_, rng, E, E', σ', τ', hsub, h1 _ _, h1 _ _, hr, ha, ho, hc, hE, hE',
    C133_subgroup (exW_single 0 576 (by decide)) (by decide) (by decide) rot_groups two_groups hsub (h1 _ _) (h1 _ _) (hσ _ _) (hσ _ _) rfl rfl hr ha ho hc
      (by decide) (by decide) (by decide) (by decide) hE hE'⟩

/-- layers from vectors to vectors for the rotations about the one axis, about the other, and about both -/
example : ∃ (solve : ℕ → LinOp ℝ → Py (DMat ℝ)) (L L' L'' : LinearL ℝ) (τ τ' τ'' : NetSt ℝ),
    LinearL.init exW (gensOf exW (stdAtoms exW fun k g => trivialAtom _ _) rotLies fun _ => []) solve (.key (.fac (.atom (.vec 0 (some 0))))) (.key (.fac (.atom (.vec 0 (some 0)))))
      ⟨freshSt, none, 0⟩ = .ok (L, τ) ∧
    LinearL.init exW (gensOf exW (stdAtoms exW fun k g => trivialAtom _ _) turnLies fun _ => []) solve (.key (.fac (.atom (.vec 0 (some 0))))) (.key (.fac (.atom (.vec 0 (some 0)))))
      ⟨freshSt, none, 0⟩ = .ok (L', τ') ∧
    LinearL.init exW (gensOf exW (stdAtoms exW fun k g => trivialAtom _ _) twoLies fun _ => []) solve (.key (.fac (.atom (.vec 0 (some 0))))) (.key (.fac (.atom (.vec 0 (some 0)))))
      ⟨freshSt, none, 0⟩ = .ok (L'', τ'') ∧
    GroupsOK exW (fun k g => trivialAtom _ _) rotLies (fun _ => []) ∧ GroupsOK exW (fun k g => trivialAtom _ _) turnLies (fun _ => []) ∧
    GroupsOK exW (fun k g => trivialAtom _ _) (fun g => rotLies g ++ turnLies g) (fun _ => [] ++ []) := by
  obtain ⟨s, h1, h2⟩ := exists_solver ℝ
  have hr : (Rep.key (.fac (.atom (.vec 0 (some 0))))).Over exW 0 81 := exV_over
  have hσ : ∀ (gs : Gid → GenSet ℝ) sol, NetReach exW 0 gs sol ⟨freshSt, none, 0⟩ := fun _ _ => .start none 0 fun h e => by simp at e
  obtain ⟨L, τ, e1⟩ := (C30_linear (exW_single 0 81 (by decide)) rot_groups (h1 _ _) (hσ _ _) hr hr (by decide)).2 (fun _ _ C _ => h2 C)
  obtain ⟨L', τ', e2⟩ := (C30_linear (exW_single 0 81 (by decide)) turn_groups (h1 _ _) (hσ _ _) hr hr (by decide)).2 (fun _ _ C _ => h2 C)
  obtain ⟨L'', τ'', e3⟩ := (C30_linear (exW_single 0 81 (by decide)) two_groups (h1 _ _) (hσ _ _) hr hr (by decide)).2 (fun _ _ C _ => h2 C)
  exact ⟨_, L, L', L'', τ, τ', τ'', e1, e2, e3, rot_groups, turn_groups, two_groups⟩

end Verif
