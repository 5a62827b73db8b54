import Verif.Lemmas.Frame
import Verif.Lemmas.ApproxNet
import Verif.Lemmas.Args

/-! Networks in other coordinates. -/
namespace Verif
open List

/-! ## Two runs with different groups -/
section
variable {W : World} {g : Gid} {N : ℕ} {gens gens' : Gid → GenSet ℝ} {solve solve' : ℕ → LinOp ℝ → Py (DMat ℝ)} {rng : Rng}

/-- Started in states that satisfy the invariants for the two groups, with the same `Scalar.G` and the same number of random draws, the two computations
end in such states, with results related by `P`. -/
def NetM.Pair {α β : Type} (W : World) (g : Gid) (gens gens' : Gid → GenSet ℝ) (m : NetM ℝ α) (m' : NetM ℝ β) (P : α → β → Prop) : Prop :=
  ∀ σ τ, NetSt.OK W g gens σ → NetSt.OK W g gens' τ → σ.sg = τ.sg → σ.draws = τ.draws → ∀ a σ' b τ', m σ = .ok (a, σ') → m' τ = .ok (b, τ') →
    (NetSt.OK W g gens σ' ∧ NetSt.OK W g gens' τ' ∧ σ'.sg = τ'.sg ∧ σ'.draws = τ'.draws) ∧ P a b

theorem NetM.Pair.of {α β : Type} {m : NetM ℝ α} {m' : NetM ℝ β} {P : α → β → Prop} {Q : α → Prop} {Q' : β → Prop} (h : NetM.Meets W g gens m Q)
    (h' : NetM.Meets W g gens' m' Q') (hs : NetM.Same m m' P) : NetM.Pair W g gens gens' m m' fun a b => P a b ∧ Q a ∧ Q' b := by
  intro σ τ h1 h2 h3 h4 a σ' b τ' e1 e2
  obtain ⟨i1, i2⟩ := h σ h1 a σ' e1
  obtain ⟨j1, j2⟩ := h' τ h2 b τ' e2
  obtain ⟨⟨k1, k2⟩, k3⟩ := hs σ τ h3 h4 a σ' b τ' e1 e2
  exact ⟨⟨i1, j1, k1, k2⟩, k3, i2, j2⟩

theorem NetM.Pair.pure {α β : Type} {a : α} {b : β} {P : α → β → Prop} (h : P a b) : NetM.Pair W g gens gens' (Pure.pure a) (Pure.pure b) P := by
  intro σ τ h1 h2 h3 h4 a' σ' b' τ' e1 e2
  obtain ⟨rfl, rfl⟩ := Prod.mk.inj (Except.ok.inj (show (Except.ok (a, σ) : Py (α × NetSt ℝ)) = .ok (a', σ') from e1))
  obtain ⟨rfl, rfl⟩ := Prod.mk.inj (Except.ok.inj (show (Except.ok (b, τ) : Py (β × NetSt ℝ)) = .ok (b', τ') from e2))
  exact ⟨⟨h1, h2, h3, h4⟩, h⟩

theorem NetM.Pair.bind {α β α' β' : Type} {m : NetM ℝ α} {m' : NetM ℝ α'} {f : α → NetM ℝ β} {f' : α' → NetM ℝ β'} {P : α → α' → Prop} {Q : β → β' → Prop}
    (hm : NetM.Pair W g gens gens' m m' P) (hf : ∀ a b, P a b → NetM.Pair W g gens gens' (f a) (f' b) Q) : NetM.Pair W g gens gens' (m >>= f) (m' >>= f') Q := by
  intro σ τ h1 h2 h3 h4 a σ' b τ' e1 e2
  change (m σ >>= fun p => f p.1 p.2) = _ at e1
  change (m' τ >>= fun p => f' p.1 p.2) = _ at e2
  cases hm1 : m σ with
  | error e => rw [hm1] at e1; exact absurd e1 (by simp [Bind.bind, Except.bind])
  | ok p =>
    cases hm2 : m' τ with
    | error e => rw [hm2] at e2; exact absurd e2 (by simp [Bind.bind, Except.bind])
    | ok q =>
      rw [hm1] at e1
      rw [hm2] at e2
      obtain ⟨⟨i1, i2, i3, i4⟩, h5⟩ := hm σ τ h1 h2 h3 h4 p.1 p.2 q.1 q.2 hm1 hm2
      exact hf p.1 q.1 h5 p.2 q.2 i1 i2 i3 i4 a σ' b τ' e1 e2

/-- Three lists of the same length, related place by place. -/
inductive All3 {α β γ : Type} (P : α → β → γ → Prop) : List α → List β → List γ → Prop
  | nil : All3 P [] [] []
  | cons {a b c l m n} : P a b c → All3 P l m n → All3 P (a :: l) (b :: m) (c :: n)

theorem NetM.Pair.mapM {α β β' : Type} {f : α → NetM ℝ β} {f' : α → NetM ℝ β'} {P : α → β → β' → Prop} (l : List α)
    (h : ∀ a ∈ l, NetM.Pair W g gens gens' (f a) (f' a) (P a)) : NetM.Pair W g gens gens' (l.mapM f) (l.mapM f') (All3 P l) := by
  induction l with
  | nil => rw [mapM_nil, mapM_nil]; exact .pure .nil
  | cons a t ih =>
    rw [mapM_cons, mapM_cons]
    exact (h a (by simp)).bind fun b b' hb => (ih fun x hx => h x (by simp [hx])).bind fun bs bs' hbs => .pure (.cons hb hbs)

/-- What two blocks built for different groups have in common. -/
structure Block.Paired (W : World) (g : Gid) (N : ℕ) (gens gens' : Gid → GenSet ℝ) (a r : Rep) (B B' : Block ℝ) : Prop where
  rep : B.rep = r
  rep' : B'.rep = r
  lin : ∃ g1, GatedOf W g N r g1 ∧ B.lin.Exact W g N gens a g1 ∧ B'.lin.Exact W g N gens' a g1
  bil : B.bil = B'.bil
  com : ∀ I : Interp ℝ, I.Dual W → ∀ (c : ℝ) (params : List ℝ), B.bil.dims ≤ params.length →
    Commutes (r.size W + r.gates W) (r.size W + r.gates W) (B.bil.applyVec W c params)
      (DMat.bdiag2 (r.mat I) (DMat.one (r.gates W))) (DMat.bdiag2 (r.mat I) (DMat.one (r.gates W)))

/-- What two networks built for different groups have in common. -/
structure Emlp.Paired (W : World) (g : Gid) (N : ℕ) (gens gens' : Gid → GenSet ℝ) (a : Rep) (mids : List Rep) (o : Rep) (E E' : Emlp ℝ) : Prop where
  fields : E.repIn = a ∧ E.repOut = o ∧ E.hidden = mids
  fields' : E'.repIn = a ∧ E'.repOut = o ∧ E'.hidden = mids
  blocks : All3 (fun p B B' => Block.Paired W g N gens gens' p.1 p.2 B B') ((a :: mids).zip mids) E.blocks E'.blocks
  last : E.last.Exact W g N gens (mids.getLastD a) o
  last' : E'.last.Exact W g N gens' (mids.getLastD a) o

variable (hW : W.SingleOK g N) (hs : GenSet.Sized W gens) (hs' : GenSet.Sized W gens') (hsol : SolverOK W gens solve) (hsol' : SolverOK W gens' solve')
include hW hs hs' hsol hsol'

omit hW hs hs' hsol hsol' in
theorem LinearL.init_same_pair (a b : Rep) :
    NetM.Same (LinearL.init W gens solve a b) (LinearL.init W gens' solve' a b) fun _ _ => True := by
  unfold LinearL.init
  exact (NetM.Same.free (.rep _)).bind fun r r' hr => (NetM.Same.solver _ _).bind fun _ _ _ => (NetM.Same.solver _ _).bind fun _ _ _ => .pure trivial

theorem LinearL.init_pair {a b : Rep} (ha : a.Over W g N) (hb : b.Over W g N) (hN : b.size W * a.size W ≤ N) :
    NetM.Pair W g gens gens' (LinearL.init W gens solve a b) (LinearL.init W gens' solve' a b) fun L L' =>
      True ∧ L.Exact W g N gens a b ∧ L'.Exact W g N gens' a b :=
  NetM.Pair.of (LinearL.init_exact hW hs hsol ha hb hN) (LinearL.init_exact hW hs' hsol' ha hb hN) (LinearL.init_same_pair a b)

theorem Block.init_pair {a r : Rep} {b : ℕ} (ha : a.Over W g N) (hr : r.Over W g N) (hra : a.size W + a.gates W ≤ b) (hrb : r.size W + r.gates W ≤ b)
    (hN : b * b ≤ N) (hrng : RngOK rng) :
    NetM.Pair W g gens gens' (Block.init W gens solve rng a r) (Block.init W gens' solve' rng a r) (Block.Paired W g N gens gens' a r) := by
  have ht := NetM.Pair.of (gated_meets (gens := gens) hW hr) (gated_meets (gens := gens') hW hr) (NetM.Same.free (.rep _))
  unfold Block.init
  refine NetM.Pair.bind ht ?_
  rintro g1 _ ⟨rfl, h1, -⟩
  refine NetM.Pair.bind (LinearL.init_pair hW hs hs' hsol hsol' ha h1.over (le_trans (Nat.mul_le_mul (h1.size ▸ hrb) (by omega)) hN)) fun lin lin' hl => ?_
  refine NetM.Pair.bind ht ?_
  rintro g2 _ ⟨rfl, h2, -⟩
  refine NetM.Pair.bind ht ?_
  rintro g3 _ ⟨rfl, h3, -⟩
  have hN2 := le_trans (Nat.mul_le_mul hrb hrb) hN
  refine NetM.Pair.bind (NetM.Pair.of (bilinear_meets (gens := gens) hW hrng h2 h3 hN2) (bilinear_meets (gens := gens') hW hrng h2 h3 hN2)
    (NetM.Same.free (BilinearL.init_free _ _))) ?_
  rintro bil _ ⟨rfl, hb, -⟩
  exact .pure ⟨rfl, rfl, ⟨g1, h1, hl.2.1, hl.2.2⟩, rfl, hb.2.1⟩

theorem Emlp.build_pair {a o : Rep} {mids : List Rep} {b : ℕ} (hov : ∀ r ∈ a :: o :: mids, r.Over W g N ∧ r.size W + r.gates W ≤ b) (hN : b * b ≤ N)
    (hrng : RngOK rng) : NetM.Pair W g gens gens' (Emlp.build W gens solve rng a mids o) (Emlp.build W gens' solve' rng a mids o)
      (Emlp.Paired W g N gens gens' a mids o) := by
  unfold Emlp.build
  refine NetM.Pair.bind (NetM.Pair.mapM (P := fun p B B' => Block.Paired W g N gens gens' p.1 p.2 B B') _ fun p hp => ?_) fun blocks blocks' hb => ?_
  · have h := chain_mem hov hp
    exact Block.init_pair hW hs hs' hsol hsol' h.1.1 h.2.1.1 h.1.2 h.2.1.2 hN hrng
  · have hl := hov (mids.getLastD a) (by rcases mem_cons.1 (mem_getLastD mids a) with h | h; exacts [mem_cons.2 (.inl h), mem_cons_of_mem _ (mem_cons_of_mem _ h)])
    have ho := hov o (by simp)
    rw [getLastD_cons]
    refine NetM.Pair.bind (LinearL.init_pair hW hs hs' hsol hsol' hl.1 ho.1 (le_trans (Nat.mul_le_mul (by omega) (by omega)) hN)) fun last last' hlast => ?_
    exact .pure ⟨⟨rfl, rfl, rfl⟩, ⟨rfl, rfl, rfl⟩, hb, hlast.2.1, hlast.2.2⟩

end

/-! ## Applying them -/
section
variable {W : World} {g : Gid} {N : ℕ} {T : ∀ k, Matrix (Fin (W.asize k g)) (Fin (W.asize k g)) ℝ}
  {custom custom' : ∀ k g, AtomRep ℝ (W.d g) (W.usize k g)} {lie disc lie' disc' : ∀ g, List (Matrix (Fin (W.d g)) (Fin (W.d g)) ℝ)}
  {P : Matrix (Fin (W.d g)) (Fin (W.d g)) ℝ} {a r : Rep} {B B' : Block ℝ}

/-- `f' (A x) = B (f x)` -/
def Carries (n m : ℕ) (f f' : List ℝ → Py (List ℝ)) (A B : DMat ℝ) : Prop :=
  ∀ x : List ℝ, x.length = n → ∃ y, f x = .ok y ∧ y.length = m ∧ f' (A.mulVec x) = .ok (B.mulVec y)

theorem Carries.comp {n m k : ℕ} {f f' h h' : List ℝ → Py (List ℝ)} {A B C : DMat ℝ} (hf : Carries n m f f' A B) (hh : Carries m k h h' B C) :
    Carries n k (fun x => f x >>= h) (fun x => f' x >>= h') A C := by
  intro x hx
  obtain ⟨y, h1, h2, h3⟩ := hf x hx
  obtain ⟨z, h4, h5, h6⟩ := hh y h2
  refine ⟨z, ?_, h5, ?_⟩
  · show (f x >>= h) = _; rw [h1]; exact h4
  · show (f' (A.mulVec x) >>= h') = _; rw [h3]; exact h6

theorem Commutes.carries {n m : ℕ} {f : List ℝ → Py (List ℝ)} {A B : DMat ℝ} (h : Commutes n m f A B) : Carries n m f f A B := h

theorem permMatrix_isPermMat {n : ℕ} (σ : Equiv.Perm (Fin n)) : IsPermMat n (DMat.ofMatrix (σ.permMatrix ℝ)) := by
  refine ⟨(finRange n).map fun i => (σ i).val, ?_, ?_⟩
  · have : (finRange n).map (fun i => (σ i).val) = ((finRange n).map σ).map Fin.val := by simp
    rw [this]
    have e : range n = (finRange n).map Fin.val := by
      apply List.ext_getElem <;> simp
    rw [e]
    refine Perm.map _ ?_
    rw [perm_ext_iff_of_nodup ((nodup_finRange _).map σ.injective) (nodup_finRange _)]
    intro a
    simp only [mem_map, mem_finRange, true_and, iff_true]
    exact ⟨σ.symm a, by simp⟩
  · refine DMat.ext (by simp [DMat.ofMatrix, DMat.permMat, DMat.of]) (by simp [DMat.ofMatrix, DMat.permMat, DMat.of]) fun i j hi hj => ?_
    have hi' : i < n := hi
    have hj' : j < n := hj
    rw [DMat.ofMatrix_e _ hi' hj']
    refine (pm_apply σ ⟨i, hi'⟩ ⟨j, hj'⟩).trans ?_
    refine Eq.symm ((DMat.of_e (by simpa using hi') (by simpa using hj')).trans ?_)
    rw [getD_eq_getElem _ _ (by simpa using hi')]
    simp [Fin.ext_iff, eq_comm]

theorem one_isPermMat (n : ℕ) : IsPermMat n (DMat.one n : DMat ℝ) := by
  rw [← DMat.ofMatrix_one, ← Matrix.permMatrix_one]
  exact permMatrix_isPermMat 1

theorem FrameOK.isPerm (fr : FrameOK W g custom custom' lie disc lie' disc' P T) :
    ∀ h, W.isPerm h = true → IsPermMat (W.asize 0 h) ((Interp.frame W g T).vec 0 (some h)).sem := by
  intro h hp
  by_cases e : h = g
  · subst e
    obtain ⟨σ, hσ⟩ := fr.perm hp
    rw [frame_vec_same, fr.zero, hσ]
    exact permMatrix_isPermMat σ
  · rw [frame_vec_ne e]
    exact one_isPermMat _

theorem Block.Paired.carries (fr : FrameOK W g custom custom' lie disc lie' disc' P T) (ok : GroupsOK W custom lie disc) (ok' : GroupsOK W custom' lie' disc')
    (ho : ∀ k, (T k).transpose * T k = 1) (hW : W.SingleOK g N)
    (h : Block.Paired W g N (gensOf W (stdAtoms W custom) lie disc) (gensOf W (stdAtoms W custom') lie' disc') a r B B')
    (ha : a.Over W g N) (hr : r.Over W g N) (hc : r.CanonicalSum W) (c : ℝ) (act : ℝ → ℝ) {p : BlockParams ℝ} (hp : p.Shaped B) :
    Carries (a.size W) (r.size W) (B.apply W c act p)
      (B'.apply W c act (p.move (DMat.bdiag2 (r.mat (Interp.frame W g T)) (DMat.one (r.gates W))) (a.mat (Interp.frame W g T))))
      (a.mat (Interp.frame W g T)) (r.mat (Interp.frame W g T)) := by
  obtain ⟨g1, h1, hl, hl'⟩ := h.lin
  obtain ⟨s, rfl, hs⟩ := hc
  have hI : (Interp.frame W g T).Dual W := frame_isDual fr.unit fun _ => ho
  have c1 : Carries (a.size W) (g1.size W) (B.lin.apply p.w p.b)
      (B'.lin.apply (((g1.mat (Interp.frame W g T)).mul p.w).mul (a.mat (Interp.frame W g T)).transpose) ((g1.mat (Interp.frame W g T)).mulVec p.b))
      (a.mat (Interp.frame W g T)) (g1.mat (Interp.frame W g T)) := fun x hx =>
    fr.linear ok ok' ho ha h1.over hl hl' (by rw [hp.rows, hl.nout]) (by rw [hp.cols, hl.nin]) (by rw [hp.b, hl.nout]) hx
  rw [h1.mat ℝ _ hI.toSized, h1.size] at c1
  have hsq := Rep.mat_sq hI.toSized hr.wf
  have c2 := (h.com _ hI c p.bw hp.bw.ge).addSelf (by simp [DMat.bdiag2, DMat.of, hsq.1])
  obtain ⟨r', y, e1, -, -, e4, -, e6⟩ := gated_spec hW hW.sgOK hr
  have c3 := gatedNonlinearity_commutes hW hW.sgOK hr hs e1 act hI fr.isPerm
  rw [e4, e6 ℝ _ hI.toSized] at c3
  have := (c1.comp c2.carries).comp c3.carries
  intro x hx
  obtain ⟨z, hz1, hz2, hz3⟩ := this x hx
  have ev : ∀ (B : Block ℝ) (p : BlockParams ℝ), B.rep = .sum s → ∀ x, B.apply W c act p x = ((fun x => (B.lin.apply p.w p.b x >>= fun x => do let y ← B.bil.applyVec W c p.bw x; Except.ok (zipWith (· + ·) y x)) >>= gatedNonlinearity W act (.sum s)) x) := by
    intro B p hB x
    unfold Block.apply
    rw [hB]
    beta_reduce
    cases B.lin.apply p.w p.b x with
    | error e => rfl
    | ok l =>
      simp only [Bind.bind, Except.bind]
      cases B.bil.applyVec W c p.bw l <;> rfl
  refine ⟨z, by rw [ev B p h.rep]; exact hz1, hz2, ?_⟩
  rw [ev B' _ h.rep', ← h.bil]
  exact hz3

theorem blocks_carry (fr : FrameOK W g custom custom' lie disc lie' disc' P T) (ok : GroupsOK W custom lie disc) (ok' : GroupsOK W custom' lie' disc')
    (ho : ∀ k, (T k).transpose * T k = 1) (hW : W.SingleOK g N) (c : ℝ) (act : ℝ → ℝ) (mids : List Rep) :
    ∀ (a : Rep) (Bs Bs' : List (Block ℝ)) (ps : List (BlockParams ℝ)), a.Over W g N → (∀ r ∈ mids, r.Over W g N ∧ r.CanonicalSum W) →
      All3 (fun p B B' => Block.Paired W g N (gensOf W (stdAtoms W custom) lie disc) (gensOf W (stdAtoms W custom') lie' disc') p.1 p.2 B B')
        ((a :: mids).zip mids) Bs Bs' → Forall₂ BlockParams.Shaped Bs ps →
      Carries (a.size W) ((mids.getLastD a).size W) (applyBlocks W c act (Bs.zip ps))
        (applyBlocks W c act (Bs'.zip (moveParams W (Interp.frame W g T) a mids ps))) (a.mat (Interp.frame W g T))
        ((mids.getLastD a).mat (Interp.frame W g T)) := by
  induction mids with
  | nil =>
    intro a Bs Bs' ps ha _ h1 h2
    cases h1
    intro x hx
    exact ⟨x, rfl, hx, rfl⟩
  | cons r t ih =>
    intro a Bs Bs' ps ha hm h1 h2
    rw [zip_cons_cons] at h1
    cases h1 with
    | cons hB hBs =>
      obtain ⟨p, ps', hp, hps, rfl⟩ := forall₂_cons_left_iff.1 h2
      have hr := hm r (by simp)
      have c1 := hB.carries fr ok ok' ho hW ha hr.1 hr.2 c act hp
      have c2 := ih r _ _ ps' hr.1 (fun q hq => hm q (by simp [hq])) hBs hps
      rw [getLastD_cons]
      exact c1.comp c2

theorem Emlp.Paired.carries {o : Rep} {mids : List Rep} {E E' : Emlp ℝ} (fr : FrameOK W g custom custom' lie disc lie' disc' P T) (ok : GroupsOK W custom lie disc)
    (ok' : GroupsOK W custom' lie' disc') (ho : ∀ k, (T k).transpose * T k = 1) (hW : W.SingleOK g N)
    (h : Emlp.Paired W g N (gensOf W (stdAtoms W custom) lie disc) (gensOf W (stdAtoms W custom') lie' disc') a mids o E E')
    (ha : a.Over W g N) (hout : o.Over W g N) (hm : ∀ r ∈ mids, r.Over W g N ∧ r.CanonicalSum W) (c : ℝ) (act : ℝ → ℝ) {ps : List (BlockParams ℝ)} {w : DMat ℝ}
    {β : List ℝ} (hp : E.Shaped ps w β) :
    Carries (a.size W) (o.size W) (E.apply W c act ps w β)
      (E'.apply W c act (moveParams W (Interp.frame W g T) a mids ps)
        (((o.mat (Interp.frame W g T)).mul w).mul ((mids.getLastD a).mat (Interp.frame W g T)).transpose) ((o.mat (Interp.frame W g T)).mulVec β))
      (a.mat (Interp.frame W g T)) (o.mat (Interp.frame W g T)) := by
  have c1 := blocks_carry fr ok ok' ho hW c act mids a E.blocks E'.blocks ps ha hm h.blocks hp.blocks
  have hl : (mids.getLastD a).Over W g N := by
    rcases mem_cons.1 (mem_getLastD mids a) with e | e
    · rw [e]; exact ha
    · exact (hm _ e).1
  have c2 : Carries ((mids.getLastD a).size W) (o.size W) (E.last.apply w β)
      (E'.last.apply (((o.mat (Interp.frame W g T)).mul w).mul ((mids.getLastD a).mat (Interp.frame W g T)).transpose) ((o.mat (Interp.frame W g T)).mulVec β))
      ((mids.getLastD a).mat (Interp.frame W g T)) (o.mat (Interp.frame W g T)) := fun x hx =>
    fr.linear ok ok' ho hl hout h.last h.last' (by rw [hp.rows, h.last.nout]) (by rw [hp.cols, h.last.nin]) (by rw [hp.b, h.last.nout]) hx
  exact c1.comp c2

end

end Verif
