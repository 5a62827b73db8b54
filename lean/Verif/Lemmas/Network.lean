import Verif.Props.Bilinear
import Verif.Lemmas.LinearLayer
import Verif.Lemmas.Gate

/-! Blocks and networks: what building one yields, and that applying it is equivariant. -/
namespace Verif
open List
variable {R : Type} [CommRing R]

section
variable {n m k : ℕ} {A B C : DMat R}

theorem Commutes.comp {f h : List R → Py (List R)} (hf : Commutes n m f A B) (hh : Commutes m k h B C) :
    Commutes n k (fun x => f x >>= h) A C := by
  intro x hx
  obtain ⟨y, h1, h2, h3⟩ := hf x hx
  obtain ⟨z, h4, h5, h6⟩ := hh y h2
  refine ⟨z, ?_, h5, ?_⟩
  · show (f x >>= h) = _; rw [h1]; exact h4
  · show (f (A.mulVec x) >>= h) = _; rw [h3]; exact h6

/-- `x ↦ f(x) + x` -/
theorem Commutes.addSelf {f : List R → Py (List R)} (hf : Commutes n n f A A) (hA : A.rows = n) :
    Commutes n n (fun x => do let y ← f x; .ok (zipWith (· + ·) y x)) A A := by
  intro x hx
  obtain ⟨y, h1, h2, h3⟩ := hf x hx
  refine ⟨zipWith (· + ·) y x, ?_, by simp [h2, hx], ?_⟩
  · show (f x >>= fun y => Except.ok (zipWith (· + ·) y x)) = _; rw [h1]; rfl
  · show (f (A.mulVec x) >>= fun y => Except.ok (zipWith (· + ·) y (A.mulVec x))) = _
    rw [h3, DMat.mulVec_add _ (by rw [h2, hx])]; rfl

end

theorem Rng.picks_ok {W : World} {rng : Rng} (h : RngOK rng) (i : ℕ) (s : SRep) : ChoiceOK W s (rng.picks W i (.sum s)) :=
  fun k => h.choose i k _ _ (Nat.min_le_left _ _)

variable [StarRing R]
variable {W : World} {g : Gid} {N : ℕ} {gens : Gid → GenSet R} {solve : ℕ → LinOp R → Py (DMat R)} {rng : Rng}

theorem NetM.Meets.rep {α : Type} {m : RepM α} {P : α → Prop}
    (h : ∀ x, SgOK W g x → ∀ a y, m x = .ok (a, y) → SgOK W g y ∧ P a) : NetM.Meets W g gens (NetM.rep m : NetM R α) P := by
  intro σ hσ a σ' e
  unfold NetM.rep at e
  cases hf : m σ.sg with
  | error e' => rw [hf] at e; exact absurd e (by simp [Bind.bind, Except.bind])
  | ok b =>
    rw [hf] at e
    have := Prod.mk.inj (Except.ok.inj e)
    rw [← this.1, ← this.2]
    obtain ⟨h1, h2⟩ := h _ hσ.sg b.1 b.2 hf
    exact ⟨⟨hσ.cache, h1⟩, h2⟩

theorem NetM.Runs.rep {α : Type} {m : RepM α} (h : ∀ x, SgOK W g x → ∃ a y, m x = .ok (a, y)) :
    NetM.Runs W g gens (NetM.rep m : NetM R α) := by
  intro σ hσ
  obtain ⟨a, y, ha⟩ := h _ hσ.sg
  refine ⟨a, { σ with sg := y }, ?_⟩
  unfold NetM.rep; rw [ha]; rfl

theorem NetM.Meets.draw : NetM.Meets W g gens (NetM.draw : NetM R ℕ) fun _ => True := by
  intro σ hσ a σ' e
  have := Prod.mk.inj (Except.ok.inj e)
  rw [← this.2]
  exact ⟨⟨hσ.cache, hσ.sg⟩, trivial⟩

theorem NetM.Runs.draw : NetM.Runs W g gens (NetM.draw : NetM R ℕ) := fun _ _ => ⟨_, _, rfl⟩

theorem NetM.Meets.mapM {α β : Type} {f : α → NetM R β} {P : α → β → Prop} (l : List α)
    (h : ∀ a ∈ l, NetM.Meets W g gens (f a) (P a)) : NetM.Meets W g gens (l.mapM f) (Forall₂ P l) := by
  induction l with
  | nil => rw [mapM_nil]; exact NetM.Meets.pure .nil
  | cons a t ih =>
    rw [mapM_cons]
    exact NetM.Meets.bind (h a (by simp)) fun b hb => NetM.Meets.bind (ih fun x hx => h x (by simp [hx])) fun bs hbs =>
      NetM.Meets.pure (.cons hb hbs)

theorem NetM.Runs.mapM {α β : Type} {f : α → NetM R β} {P : α → β → Prop} (l : List α)
    (h : ∀ a ∈ l, NetM.Meets W g gens (f a) (P a)) (hr : ∀ a ∈ l, NetM.Runs W g gens (f a)) : NetM.Runs W g gens (l.mapM f) := by
  induction l with
  | nil => rw [mapM_nil]; exact NetM.Runs.pure
  | cons a t ih =>
    rw [mapM_cons]
    exact NetM.Runs.bind (hr a (by simp)) (h a (by simp)) fun b _ =>
      NetM.Runs.bind (ih (fun x hx => h x (by simp [hx])) fun x hx => hr x (by simp [hx]))
        (NetM.Meets.mapM t fun x hx => h x (by simp [hx])) fun bs _ => NetM.Runs.pure

omit [StarRing R] in
theorem setG_blocks {x : Option Gid} (L : BilinearL) (params : List R) (X : DMat R) (cs : Counter Key) : ∀ i,
    L.blocks (W.setG x) params X i cs = L.blocks W params X i cs := by
  induction cs with
  | nil => intro i; rfl
  | cons kc t ih => obtain ⟨k, m⟩ := kc; intro i; simp only [BilinearL.blocks, ih, setG_ksz]

omit [StarRing R] in
theorem setG_apply {x : Option Gid} (L : BilinearL) (c : R) (params : List R) : L.apply (W.setG x) c params = L.apply W c params := by
  funext v
  unfold BilinearL.apply BilinearL.project
  simp only [setG_blocks]

omit [StarRing R] in
theorem setG_applyVec {x : Option Gid} (L : BilinearL) (c : R) (params : List R) : L.applyVec (W.setG x) c params = L.applyVec W c params := by
  funext v
  unfold BilinearL.applyVec BilinearL.apply BilinearL.project
  simp only [setG_blocks]

/-- What a representation returned by `gated(r)` satisfies. -/
structure GatedOf (W : World) (g : Gid) (N : ℕ) (r r' : Rep) : Prop where
  over : r'.Over W g N
  size : r'.size W = r.size W + r.gates W
  sum : (∃ s, r = .sum s) → ∃ s, r' = .sum s
  key : ∀ k, r = .key k → k.isPerm W = true → r' = .key k
  mat : ∀ (R : Type) [CommRing R] (I : Interp R), I.Sized W → r'.mat I = DMat.bdiag2 (r.mat I) (DMat.one (r.gates W))

/-- What a block knows after it is built. -/
structure Block.Good (W : World) (g : Gid) (N : ℕ) (gens : Gid → GenSet R) (a r : Rep) (B : Block R) : Prop where
  rep : B.rep = r
  sum : ∀ k, r = .key k → k.isPerm W = false
  lin : ∃ g1, GatedOf W g N r g1 ∧ B.lin.Good W gens a g1
  bil : ∀ I : Interp R, I.Dual W → ∀ (c : R) (params : List R), B.bil.dims ≤ params.length →
    Commutes (r.size W + r.gates W) (r.size W + r.gates W) (B.bil.applyVec W c params)
      (DMat.bdiag2 (r.mat I) (DMat.one (r.gates W))) (DMat.bdiag2 (r.mat I) (DMat.one (r.gates W)))
  batch : ∀ (c : R) (params : List R), B.bil.dims ≤ params.length →
    Rowwise (r.size W + r.gates W) (r.size W + r.gates W) (B.bil.apply W c params) (B.bil.applyVec W c params)

section
variable (hW : W.SingleOK g N)
include hW

theorem gated_meets {r : Rep} (hr : r.Over W g N) : NetM.Meets W g gens (NetM.rep (gated W r) : NetM R Rep) (GatedOf W g N r) := by
  refine NetM.Meets.rep fun x hx a y e => ?_
  obtain ⟨r', y', h1, h2, h3, h4, h5, h6⟩ := gated_spec hW hx hr
  rw [h1] at e
  obtain ⟨rfl, rfl⟩ := Prod.mk.inj (Except.ok.inj e)
  refine ⟨h2, h3, h4, h5, ?_, h6⟩
  rintro k rfl hk
  unfold gated at h1
  simp only [hk, if_true] at h1
  exact (Prod.mk.inj (Except.ok.inj h1)).1.symm

theorem gated_runs {r : Rep} (hr : r.Over W g N) : NetM.Runs W g gens (NetM.rep (gated W r) : NetM R Rep) := by
  refine NetM.Runs.rep fun x hx => ?_
  obtain ⟨r', y', h1, -⟩ := gated_spec hW hx hr
  exact ⟨_, _, h1⟩

theorem bilinear_meets (hrng : RngOK rng) {r a b : Rep} (ha : GatedOf W g N r a) (hb : GatedOf W g N r b) (hN : (r.size W + r.gates W) * (r.size W + r.gates W) ≤ N) :
    NetM.Meets W g gens (BilinearL.init W rng a b : NetM R BilinearL) fun L =>
      (∃ s, a = .sum s) ∧ (∀ I : Interp R, I.Dual W → ∀ (c : R) (params : List R), L.dims ≤ params.length →
        Commutes (r.size W + r.gates W) (r.size W + r.gates W) (L.applyVec W c params)
          (DMat.bdiag2 (r.mat I) (DMat.one (r.gates W))) (DMat.bdiag2 (r.mat I) (DMat.one (r.gates W)))) ∧
      ∀ (c : R) (params : List R), L.dims ≤ params.length →
        Rowwise (r.size W + r.gates W) (r.size W + r.gates W) (L.apply W c params) (L.applyVec W c params) := by
  unfold BilinearL.init
  refine NetM.Meets.bind NetM.Meets.draw fun i _ => NetM.Meets.lift fun x hx L hL => ?_
  have ha' := ha.over.setG hW hx
  have hb' := hb.over.setG hW hx
  have hN' : b.size W * a.size W ≤ N := by rw [ha.size, hb.size]; exact hN
  rcases ha.over.isSumOrKey with ⟨k, rfl⟩ | ⟨s, rfl⟩
  · have := (C31_builds (hW.setG hx) (rng.picks (W.setG x) i (.key k)) hb' ha' hN').2 (by simp)
    rw [this] at hL
    cases hL
  · have e1 : s.size (W.setG x) = r.size W + r.gates W := ha.size
    have e2 : b.size (W.setG x) = r.size W + r.gates W := hb.size
    refine ⟨⟨s, rfl⟩, fun I hI c params hp => ?_, fun c params hp X hX => ?_⟩
    rotate_left
    · obtain ⟨Y, h1, h2, h3, h4⟩ :=
        C41_batch (hW.setG hx) hb' ha' hN' (Rng.picks_ok (W := W.setG x) hrng i s) hL c hp (X := X) (by rw [e1]; exact hX)
      rw [setG_apply] at h1
      rw [setG_applyVec] at h4
      exact ⟨Y, h1, h2, by rw [h3, e2], h4⟩
    have := C31_layer (hW.setG hx) hb' ha' hN' (Rng.picks_ok (W := W.setG x) hrng i s) hL (setG_dual.2 hI) c hp
    rw [ha.mat R I hI.toSized, hb.mat R I hI.toSized] at this
    rw [e1, e2, setG_applyVec] at this
    exact this

theorem bilinear_runs {r a b : Rep} (ha : GatedOf W g N r a) (hb : GatedOf W g N r b) (hs : ∃ s, r = .sum s)
    (hN : (r.size W + r.gates W) * (r.size W + r.gates W) ≤ N) :
    NetM.Runs W g gens (BilinearL.init W rng a b : NetM R BilinearL) := by
  unfold BilinearL.init
  refine NetM.Runs.bind NetM.Runs.draw NetM.Meets.draw fun i _ => NetM.Runs.lift fun x hx => ?_
  have hN' : b.size W * a.size W ≤ N := by rw [ha.size, hb.size]; exact hN
  obtain ⟨s, rfl⟩ := ha.sum hs
  exact (C31_builds (hW.setG hx) (rng.picks (W.setG x) i (.sum s)) (hb.over.setG hW hx) (ha.over.setG hW hx) hN').1 s rfl

variable (hs : GenSet.Sized W gens) (hsol : SolverOK W gens solve) {a r : Rep} (ha : a.Over W g N) (hr : r.Over W g N)
  {b : ℕ} (hra : a.size W + a.gates W ≤ b) (hrb : r.size W + r.gates W ≤ b) (hN : b * b ≤ N)
include hs hsol ha hr hra hrb hN

theorem Block.init_meets (hrng : RngOK rng) : NetM.Meets W g gens (Block.init W gens solve rng a r) (Block.Good W g N gens a r) := by
  unfold Block.init
  refine NetM.Meets.bind (gated_meets hW hr) fun g1 h1 => ?_
  refine NetM.Meets.bind (LinearL.init_meets hW hs hsol ha h1.over (le_trans (Nat.mul_le_mul (h1.size ▸ hrb) (by omega)) hN)) fun lin hl => ?_
  refine NetM.Meets.bind (gated_meets hW hr) fun g2 h2 => ?_
  refine NetM.Meets.bind (gated_meets hW hr) fun g3 h3 => ?_
  refine NetM.Meets.bind (bilinear_meets hW hrng h2 h3 (le_trans (Nat.mul_le_mul hrb hrb) hN)) fun bil hb => ?_
  refine NetM.Meets.pure ⟨rfl, fun k hk => ?_, ⟨g1, h1, hl⟩, hb.2.1, hb.2.2⟩
  obtain ⟨s, hs⟩ := hb.1
  by_contra hp
  have := h2.key k hk (by simpa using hp)
  rw [hs] at this
  cases this

theorem Block.init_runs (hrng : RngOK rng) (ht : SolverRuns W gens solve) (hsum : ∃ s, r = .sum s) : NetM.Runs W g gens (Block.init W gens solve rng a r) := by
  unfold Block.init
  refine NetM.Runs.bind (gated_runs hW hr) (gated_meets hW hr) fun g1 h1 => ?_
  have hN1 : g1.size W * a.size W ≤ N := le_trans (Nat.mul_le_mul (h1.size ▸ hrb) (by omega)) hN
  refine NetM.Runs.bind (LinearL.init_runs hW hs hsol ha h1.over ht hN1) (LinearL.init_meets hW hs hsol ha h1.over hN1) fun lin hl => ?_
  refine NetM.Runs.bind (gated_runs hW hr) (gated_meets hW hr) fun g2 h2 => ?_
  refine NetM.Runs.bind (gated_runs hW hr) (gated_meets hW hr) fun g3 h3 => ?_
  have hN2 := le_trans (Nat.mul_le_mul hrb hrb) hN
  refine NetM.Runs.bind (bilinear_runs hW h2 h3 hsum hN2) (bilinear_meets hW hrng h2 h3 hN2) fun bil hb => ?_
  exact NetM.Runs.pure

end

section
variable {a r : Rep} {B : Block R}

omit [StarRing R] in
/-- A block commutes with whatever its linear layer commutes with. -/
theorem Block.Good.commutes_of (hW : W.SingleOK g N) (h : B.Good W g N gens a r) (hr : r.Over W g N) (hc : r.CanonicalSum W)
    (c : R) (act : R → R) {p : BlockParams R} (hp : p.Shaped B) {I : Interp R} (hI : I.Dual W)
    (hlin : ∀ g1, GatedOf W g N r g1 → B.lin.Good W gens a g1 → Commutes (a.size W) (g1.size W) (B.lin.apply p.w p.b) (a.mat I) (g1.mat I))
    (hperm : ∀ h, W.isPerm h = true → IsPermMat (W.asize 0 h) (I.vec 0 (some h)).sem) :
    Commutes (a.size W) (r.size W) (B.apply W c act p) (a.mat I) (r.mat I) := by
  obtain ⟨g1, h1, hl⟩ := h.lin
  obtain ⟨s, rfl, hs⟩ := hc
  have c1 := hlin g1 h1 hl
  rw [h1.mat R I hI.toSized, h1.size] at c1
  have hsq := Rep.mat_sq hI.toSized hr.wf
  have c2 := (h.bil I hI c p.bw hp.bw.ge).addSelf (by simp [DMat.bdiag2, DMat.of, hsq.1])
  obtain ⟨r', y, e1, -, -, e4, -, e6⟩ := gated_spec hW hW.sgOK hr
  have c3 := gatedNonlinearity_commutes hW hW.sgOK hr hs e1 act hI hperm
  rw [e4, e6 R I hI.toSized] at c3
  have := (c1.comp c2).comp c3
  intro x hx
  obtain ⟨z, hz1, hz2, hz3⟩ := this x hx
  have ev : ∀ x, B.apply W c act p x = ((fun x => (B.lin.apply p.w p.b x >>= fun x => do let y ← B.bil.applyVec W c p.bw x; Except.ok (zipWith (· + ·) y x)) >>= gatedNonlinearity W act (.sum s)) x) := by
    intro x
    unfold Block.apply
    rw [h.rep]
    beta_reduce
    cases B.lin.apply p.w p.b x with
    | error e => rfl
    | ok l =>
      simp only [Bind.bind, Except.bind]
      cases B.bil.applyVec W c p.bw l <;> rfl
  exact ⟨z, by rw [ev]; exact hz1, hz2, by rw [ev]; exact hz3⟩

omit [StarRing R] in
theorem Block.Good.commutes (hW : W.SingleOK g N) (h : B.Good W g N gens a r) (ha : a.Over W g N) (hr : r.Over W g N) (hc : r.CanonicalSum W)
    (c : R) (act : R → R) {p : BlockParams R} (hp : p.Shaped B) {I : Interp R} (hI : I.Dual W) (hfix : Fixes W gens I)
    (hperm : ∀ h, W.isPerm h = true → IsPermMat (W.asize 0 h) (I.vec 0 (some h)).sem) :
    Commutes (a.size W) (r.size W) (B.apply W c act p) (a.mat I) (r.mat I) :=
  h.commutes_of hW hr hc c act hp hI (fun _ h1 hl => hl.commutes h1.over.wf hI ha.wf hfix (by rw [hp.rows, hl.nout]) (by rw [hp.cols, hl.nin])
    (by rw [hp.b, hl.nout])) hperm

omit [StarRing R] in
/-- A block whose representation is not a sum in canonical order raises. -/
theorem Block.Good.raises (h : B.Good W g N gens a r) (hr : r.Over W g N) (hc : ¬ r.CanonicalSum W) (c : R) (act : R → R) (p : BlockParams R) (x : List R) : ∃ e, B.apply W c act p x = .error e := by
  have hg : ∀ v : List R, ∃ e, gatedNonlinearity W act r v = .error e := by
    intro v
    rcases hr.isSumOrKey with ⟨k, rfl⟩ | ⟨s, rfl⟩
    · have hkey := hr.key (k.base W) (by simp [Rep.keys])
      cases k with
      | scalar => exact absurd (h.sum _ rfl) (by simp [Key.isPerm])
      | fac f =>
        cases f with
        | atom a => exact ⟨_, (C35_single act v).1 a⟩
        | prod p => exact (C35_single act v).2 p (h.sum _ rfl)
      | dprod d => exact absurd hkey.2 (by simp [Key.base])
    · refine ⟨.assertion, ?_⟩
      unfold gatedNonlinearity
      rw [C34_not_canonical hr.wf fun e => hc ⟨s, rfl, e⟩]
      rfl
  unfold Block.apply
  rw [h.rep]
  cases B.lin.apply p.w p.b x with
  | error e => exact ⟨e, rfl⟩
  | ok l =>
    simp only [Bind.bind, Except.bind]
    cases B.bil.applyVec W c p.bw l with
    | error e => exact ⟨e, rfl⟩
    | ok b => exact hg _

end

/-! ### Networks -/

theorem mem_getLastD {α : Type} (l : List α) (a : α) : l.getLastD a ∈ a :: l := by
  induction l generalizing a with
  | nil => simp
  | cons b t ih => rw [getLastD_cons]; exact mem_cons_of_mem _ (ih b)

/-- What a network knows after it is built. -/
structure Emlp.Good (W : World) (g : Gid) (N : ℕ) (gens : Gid → GenSet R) (a : Rep) (mids : List Rep) (o : Rep) (E : Emlp R) : Prop where
  blocks : Forall₂ (fun p B => Block.Good W g N gens p.1 p.2 B) ((a :: mids).zip mids) E.blocks
  last : E.last.Good W gens (mids.getLastD a) o
  fields : E.repIn = a ∧ E.repOut = o ∧ E.hidden = mids

section
variable (hW : W.SingleOK g N) (hs : GenSet.Sized W gens) (hsol : SolverOK W gens solve) (hrng : RngOK rng) {a o : Rep} {mids : List Rep}
  {b : ℕ} (hov : ∀ r ∈ a :: o :: mids, r.Over W g N ∧ r.size W + r.gates W ≤ b) (hN : b * b ≤ N)
include hW hs hsol hrng hov hN

omit hW hs hsol hrng hN [StarRing R] in
theorem chain_mem {p : Rep × Rep} (hp : p ∈ (a :: mids).zip mids) : (p.1.Over W g N ∧ p.1.size W + p.1.gates W ≤ b) ∧
    (p.2.Over W g N ∧ p.2.size W + p.2.gates W ≤ b) ∧ p.2 ∈ mids := by
  have h := of_mem_zip (a := p.1) (b := p.2) hp
  refine ⟨hov _ ?_, hov _ (by simp [h.2]), h.2⟩
  rcases mem_cons.1 h.1 with h | h <;> simp [h]

theorem Emlp.build_meets : NetM.Meets W g gens (Emlp.build W gens solve rng a mids o) (Emlp.Good W g N gens a mids o) := by
  unfold Emlp.build
  refine NetM.Meets.bind (NetM.Meets.mapM (P := fun p B => Block.Good W g N gens p.1 p.2 B) _ fun p hp => ?_) fun blocks hb => ?_
  · have h := chain_mem hov hp
    exact Block.init_meets hW hs hsol h.1.1 h.2.1.1 h.1.2 h.2.1.2 hN hrng
  · have hl := hov (mids.getLastD a) (by rcases mem_cons.1 (mem_getLastD mids a) with h | h; exacts [mem_cons.2 (.inl h), mem_cons_of_mem _ (mem_cons_of_mem _ h)])
    have ho := hov o (by simp)
    rw [getLastD_cons]
    refine NetM.Meets.bind (LinearL.init_meets hW hs hsol hl.1 ho.1 (le_trans (Nat.mul_le_mul (by omega) (by omega)) hN)) fun last hlast => ?_
    exact NetM.Meets.pure ⟨hb, hlast, rfl, rfl, rfl⟩

theorem Emlp.build_runs (ht : SolverRuns W gens solve) (hsum : ∀ r ∈ mids, ∃ s, r = .sum s) :
    NetM.Runs W g gens (Emlp.build W gens solve rng a mids o) := by
  unfold Emlp.build
  have hm : ∀ p ∈ (a :: mids).zip mids, NetM.Meets W g gens (Block.init W gens solve rng p.1 p.2) (Block.Good W g N gens p.1 p.2) := by
    intro p hp
    have h := chain_mem hov hp
    exact Block.init_meets hW hs hsol h.1.1 h.2.1.1 h.1.2 h.2.1.2 hN hrng
  refine NetM.Runs.bind (NetM.Runs.mapM _ hm fun p hp => ?_) (NetM.Meets.mapM _ hm) fun blocks hb => ?_
  · have h := chain_mem hov hp
    exact Block.init_runs hW hs hsol h.1.1 h.2.1.1 h.1.2 h.2.1.2 hN hrng ht (hsum _ h.2.2)
  · have hl := hov (mids.getLastD a) (by rcases mem_cons.1 (mem_getLastD mids a) with h | h; exacts [mem_cons.2 (.inl h), mem_cons_of_mem _ (mem_cons_of_mem _ h)])
    have ho := hov o (by simp)
    rw [getLastD_cons]
    have hN' := le_trans (Nat.mul_le_mul (show o.size W ≤ b by omega) (show (mids.getLastD a).size W ≤ b by omega)) hN
    exact NetM.Runs.bind (LinearL.init_runs hW hs hsol hl.1 ho.1 ht hN') (LinearL.init_meets hW hs hsol hl.1 ho.1 hN') fun last _ => NetM.Runs.pure

end

omit [StarRing R] in
theorem blocks_commute (hW : W.SingleOK g N) (c : R) (act : R → R) {I : Interp R} (hI : I.Dual W) (hfix : Fixes W gens I)
    (hperm : ∀ h, W.isPerm h = true → IsPermMat (W.asize 0 h) (I.vec 0 (some h)).sem) (mids : List Rep) :
    ∀ (a : Rep) (Bs : List (Block R)) (ps : List (BlockParams R)), a.Over W g N → (∀ r ∈ mids, r.Over W g N ∧ r.CanonicalSum W) →
      Forall₂ (fun p B => Block.Good W g N gens p.1 p.2 B) ((a :: mids).zip mids) Bs → Forall₂ BlockParams.Shaped Bs ps →
      Commutes (a.size W) ((mids.getLastD a).size W) (applyBlocks W c act (Bs.zip ps)) (a.mat I) ((mids.getLastD a).mat I) := by
  induction mids with
  | nil =>
    intro a Bs ps ha _ h1 h2
    cases h1
    intro x hx
    exact ⟨x, rfl, hx, rfl⟩
  | cons r t ih =>
    intro a Bs ps ha hm h1 h2
    rw [zip_cons_cons] at h1
    obtain ⟨B, Bs', hB, hBs, rfl⟩ := forall₂_cons_left_iff.1 h1
    obtain ⟨p, ps', hp, hps, rfl⟩ := forall₂_cons_left_iff.1 h2
    have hr := hm r (by simp)
    have c1 := hB.commutes hW ha hr.1 hr.2 c act hp hI hfix hperm
    have c2 := ih r Bs' ps' hr.1 (fun q hq => hm q (by simp [hq])) hBs hps
    rw [getLastD_cons]
    exact c1.comp c2

omit [StarRing R] in
theorem blocks_raise (c : R) (act : R → R) (mids : List Rep) :
    ∀ (a : Rep) (Bs : List (Block R)) (ps : List (BlockParams R)) (x : List R), (∀ r ∈ mids, r.Over W g N) →
      (∃ r ∈ mids, ¬ r.CanonicalSum W) → Forall₂ (fun p B => Block.Good W g N gens p.1 p.2 B) ((a :: mids).zip mids) Bs →
      ps.length = Bs.length → ∃ e, applyBlocks W c act (Bs.zip ps) x = .error e := by
  induction mids with
  | nil => intro a Bs ps x _ ⟨r, hr, _⟩; cases hr
  | cons r t ih =>
    intro a Bs ps x hm hex h1 h2
    rw [zip_cons_cons] at h1
    obtain ⟨B, Bs', hB, hBs, rfl⟩ := forall₂_cons_left_iff.1 h1
    cases ps with
    | nil => simp at h2
    | cons p ps' =>
      rw [zip_cons_cons]
      simp only [applyBlocks]
      by_cases hc : r.CanonicalSum W
      · cases hy : B.apply W c act p x with
        | error e => exact ⟨e, rfl⟩
        | ok y =>
          refine ih r Bs' ps' y (fun q hq => hm q (by simp [hq])) ?_ hBs (by simpa using h2)
          obtain ⟨q, hq, hq'⟩ := hex
          rcases mem_cons.1 hq with rfl | h
          · exact absurd hc hq'
          · exact ⟨q, h, hq'⟩
      · obtain ⟨e, he⟩ := hB.raises (hm r (by simp)) hc c act p x
        exact ⟨e, by rw [he]; rfl⟩

section
variable {a o : Rep} {mids : List Rep} {E : Emlp R} {ps : List (BlockParams R)} {w : DMat R} {β : List R}

omit [StarRing R] in
theorem Emlp.Good.commutes (hW : W.SingleOK g N) (h : E.Good W g N gens a mids o) (ha : a.Over W g N) (ho : o.Over W g N)
    (hm : ∀ r ∈ mids, r.Over W g N ∧ r.CanonicalSum W) (c : R) (act : R → R) {I : Interp R} (hI : I.Dual W) (hfix : Fixes W gens I)
    (hperm : ∀ h, W.isPerm h = true → IsPermMat (W.asize 0 h) (I.vec 0 (some h)).sem) (hp : E.Shaped ps w β) :
    Commutes (a.size W) (o.size W) (E.apply W c act ps w β) (a.mat I) (o.mat I) := by
  have c1 := blocks_commute hW c act hI hfix hperm mids a E.blocks ps ha hm h.blocks hp.blocks
  have hl : (mids.getLastD a).Over W g N := by
    rcases mem_cons.1 (mem_getLastD mids a) with e | e
    · rw [e]; exact ha
    · exact (hm _ e).1
  have c2 := h.last.commutes ho.wf hI hl.wf hfix (w := w) (β := β) (by rw [hp.rows, h.last.nout]) (by rw [hp.cols, h.last.nin]) (by rw [hp.b, h.last.nout])
  exact c1.comp c2

omit [StarRing R] in
theorem Emlp.Good.raises (h : E.Good W g N gens a mids o) (hm : ∀ r ∈ mids, r.Over W g N) (hc : ∃ r ∈ mids, ¬ r.CanonicalSum W)
    (c : R) (act : R → R) (hp : ps.length = E.blocks.length) (x : List R) : ∃ e, E.apply W c act ps w β x = .error e := by
  obtain ⟨e, he⟩ := blocks_raise c act mids a E.blocks ps x hm hc h.blocks hp
  exact ⟨e, by unfold Emlp.apply; rw [he]; rfl⟩

end
end Verif
