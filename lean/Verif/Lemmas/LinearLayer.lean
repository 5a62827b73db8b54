import Verif.Lemmas.SetG
import Verif.Lemmas.Cache
import Verif.Lemmas.RShift

/-! Linear layers: what building one yields, and that applying it is equivariant. -/
namespace Verif
open List
variable {R : Type} [CommRing R]

namespace DMat

theorem mulVec_add (A : DMat R) {v w : List R} (h : v.length = w.length) :
    A.mulVec (zipWith (· + ·) v w) = zipWith (· + ·) (A.mulVec v) (A.mulVec w) := by
  refine vec_ext (by simp) fun i hi => ?_
  rw [length_mulVec] at hi
  have e : ∀ (v w : List R), v.length = w.length → ∀ j, (zipWith (· + ·) v w).getD j 0 = v.getD j 0 + w.getD j 0 := by
    intro v w h j
    by_cases hj : j < v.length
    · rw [getD_eq_getElem _ _ (by simp [hj, ← h]), getD_eq_getElem _ _ hj, getD_eq_getElem _ _ (h ▸ hj), getElem_zipWith]
    · rw [getD_eq_default _ _ (by simp; omega), getD_eq_default _ _ (by omega), getD_eq_default _ _ (by omega), add_zero]
  rw [e _ _ (by simp), getD_mulVec hi, getD_mulVec hi, getD_mulVec hi, ← Finset.sum_add_distrib]
  exact Finset.sum_congr rfl fun j _ => by rw [e _ _ h, mul_add]

end DMat

variable [StarRing R]

theorem OrthoBasis.range {n : ℕ} {Q P : DMat R} {F : List R → Prop} (h : OrthoBasis n Q F) (e : P = Q.mul Q.transpose) :
    P.IsSq n ∧ ∀ w : List R, w.length = n → F (P.mulVec w) := by
  subst e
  refine ⟨⟨h.rows, h.rows⟩, fun w hw => ?_⟩
  rw [DMat.mulVec_mul _ _ _ rfl]
  exact (h.span _ (by simp [h.rows])).2 ⟨_, by simp, rfl⟩

variable {W : World} {g : Gid} {N : ℕ} {gens : Gid → GenSet R} {solve : ℕ → LinOp R → Py (DMat R)}

/-- What a `Linear` layer knows after it is built. -/
structure LinearL.Good (W : World) (gens : Gid → GenSet R) (a b : Rep) (L : LinearL R) : Prop where
  nin : L.nin = a.size W
  nout : L.nout = b.size W
  w : ∃ r : Rep, r.WF W ∧ r.size W = b.size W * a.size W ∧
    (∀ I : Interp R, I.Dual W → ∀ M : DMat R, M.rows = b.size W → M.cols = a.size W →
      (r.mat I).mulVec M.flat = M.flat → M.mul (a.mat I) = (b.mat I).mul M) ∧
    L.Pw.sem.IsSq (r.size W) ∧ ∀ v : List R, v.length = r.size W → r.Fixed W gens (L.Pw.sem.mulVec v)
  b : L.Pb.sem.IsSq (b.size W) ∧ ∀ v : List R, v.length = b.size W → b.Fixed W gens (L.Pb.sem.mulVec v)

/-- The state invariant. -/
structure NetSt.OK (W : World) (g : Gid) (gens : Gid → GenSet R) (σ : NetSt R) : Prop where
  cache : CacheOK W gens σ.solve
  sg : SgOK W g σ.sg

/-- The computation `m` keeps the state invariant, and its result, if any, satisfies `P`. -/
def NetM.Meets {α : Type} (W : World) (g : Gid) (gens : Gid → GenSet R) (m : NetM R α) (P : α → Prop) : Prop :=
  ∀ σ, NetSt.OK W g gens σ → ∀ a σ', m σ = .ok (a, σ') → NetSt.OK W g gens σ' ∧ P a

/-- The computation `m` returns from every state that satisfies the invariant. -/
def NetM.Runs {α : Type} (W : World) (g : Gid) (gens : Gid → GenSet R) (m : NetM R α) : Prop :=
  ∀ σ, NetSt.OK W g gens σ → ∃ a σ', m σ = .ok (a, σ')

theorem NetM.Meets.bind {α β : Type} {m : NetM R α} {f : α → NetM R β} {P : α → Prop} {Q : β → Prop}
    (hm : NetM.Meets W g gens m P) (hf : ∀ a, P a → NetM.Meets W g gens (f a) Q) : NetM.Meets W g gens (m >>= f) Q := by
  intro σ hσ b σ' h
  change (m σ >>= fun p => f p.1 p.2) = _ at h
  cases hm' : m σ with
  | error e => rw [hm'] at h; exact absurd h (by simp [Bind.bind, Except.bind])
  | ok p =>
    obtain ⟨h1, h2⟩ := hm σ hσ p.1 p.2 hm'
    rw [hm'] at h
    exact hf p.1 h2 p.2 h1 b σ' h

theorem NetM.Runs.bind {α β : Type} {m : NetM R α} {f : α → NetM R β} {P : α → Prop} (hr : NetM.Runs W g gens m)
    (hm : NetM.Meets W g gens m P) (hf : ∀ a, P a → NetM.Runs W g gens (f a)) : NetM.Runs W g gens (m >>= f) := by
  intro σ hσ
  obtain ⟨a, σ', h⟩ := hr σ hσ
  obtain ⟨h1, h2⟩ := hm σ hσ a σ' h
  obtain ⟨b, σ'', h'⟩ := hf a h2 σ' h1
  refine ⟨b, σ'', ?_⟩
  show (m σ >>= fun p => f p.1 p.2) = _
  rw [h]; exact h'

theorem NetM.Meets.pure {α : Type} {a : α} {P : α → Prop} (h : P a) : NetM.Meets W g gens (Pure.pure a : NetM R α) P := by
  intro σ hσ b σ' e
  have e' : (Except.ok (a, σ) : Py (α × NetSt R)) = .ok (b, σ') := e
  have := Prod.mk.inj (Except.ok.inj e')
  rw [← this.1, ← this.2]; exact ⟨hσ, h⟩

theorem NetM.Runs.pure {α : Type} {a : α} : NetM.Runs W g gens (Pure.pure a : NetM R α) := fun σ _ => ⟨a, σ, rfl⟩

theorem NetM.Meets.imp {α : Type} {m : NetM R α} {P Q : α → Prop} (hm : NetM.Meets W g gens m P) (h : ∀ a, P a → Q a) :
    NetM.Meets W g gens m Q := fun σ hσ a σ' e => ⟨(hm σ hσ a σ' e).1, h a (hm σ hσ a σ' e).2⟩

/-- Code that only reads `Scalar.G`. -/
theorem NetM.Meets.lift {α : Type} {f : World → Py α} {P : α → Prop}
    (h : ∀ x, SgOK W g x → ∀ a, f (W.setG x) = .ok a → P a) : NetM.Meets W g gens (NetM.rep (RepM.lift W f) : NetM R α) P := by
  intro σ hσ a σ' e
  unfold NetM.rep RepM.lift at e
  cases hf : f (W.setG σ.sg) with
  | error e' => rw [hf] at e; exact absurd e (by simp [Bind.bind, Except.bind])
  | ok b =>
    rw [hf] at e
    have := Prod.mk.inj (Except.ok.inj e)
    rw [← this.1, ← this.2]
    exact ⟨⟨hσ.cache, hσ.sg⟩, h _ hσ.sg b hf⟩

theorem NetM.Runs.lift {α : Type} {f : World → Py α} (h : ∀ x, SgOK W g x → ∃ a, f (W.setG x) = .ok a) :
    NetM.Runs W g gens (NetM.rep (RepM.lift W f) : NetM R α) := by
  intro σ hσ
  obtain ⟨a, ha⟩ := h _ hσ.sg
  refine ⟨a, { σ with sg := σ.sg }, ?_⟩
  unfold NetM.rep RepM.lift; rw [ha]; rfl

theorem NetM.Meets.solver {α : Type} {m : World → SolveM R α} {P : α → Prop}
    (h : ∀ x, SgOK W g x → Verif.Meets W gens (m (W.setG x)) P) : NetM.Meets W g gens (NetM.solver W m) P := by
  intro σ hσ a σ' e
  obtain ⟨h1, h2⟩ := h _ hσ.sg σ.solve hσ.cache
  unfold NetM.solver at e
  match hm : m (W.setG σ.sg) σ.solve with
  | (.error e', s) => rw [hm] at e; exact absurd e (by simp)
  | (.ok b, s) =>
    rw [hm] at e h1 h2
    have := Prod.mk.inj (Except.ok.inj e)
    rw [← this.1, ← this.2]
    exact ⟨⟨h1, hσ.sg⟩, h2 b rfl⟩

theorem NetM.Runs.solver {α : Type} {m : World → SolveM R α} (h : ∀ x, SgOK W g x → Verif.Runs (m (W.setG x))) :
    NetM.Runs W g gens (NetM.solver W m) := by
  intro σ hσ
  obtain ⟨b, hb⟩ := h _ hσ.sg σ.solve
  unfold NetM.solver
  match hm : m (W.setG σ.sg) σ.solve with
  | (.error e', s) => rw [hm] at hb; exact absurd hb (by simp)
  | (.ok b, s) => exact ⟨b, _, rfl⟩

section
variable (hW : W.SingleOK g N) (hs : GenSet.Sized W gens) (hsol : SolverOK W gens solve) {a b : Rep} (ha : a.Over W g N)
  (hb : b.Over W g N)
include hW hs hsol hb

theorem projector_net : NetM.Meets W g gens (NetM.solver W fun W => b.equivariantProjector W gens solve) fun L =>
    L.sem.IsSq (b.size W) ∧ ∀ v : List R, v.length = b.size W → b.Fixed W gens (L.sem.mulVec v) := by
  refine NetM.Meets.solver fun x hx => ?_
  have hb' := hb.setG hW hx
  have := Rep.projector_meets (W := W.setG x) (solve := solve) (setG_gsized.2 hs) hsol hb'.wf (Rep.single_onePerGroup hb'.wf hb'.key)
  intro τ hτ
  obtain ⟨h1, h2⟩ := this τ hτ
  refine ⟨h1, fun L hL => ?_⟩
  obtain ⟨Q, hQ, e⟩ := h2 L hL
  exact hQ.range e

include ha in
theorem LinearL.init_meets (hN : b.size W * a.size W ≤ N) :
    NetM.Meets W g gens (LinearL.init W gens solve a b) (LinearL.Good W gens a b) := by
  unfold LinearL.init
  refine NetM.Meets.bind (P := fun r => r.Over W g N ∧ r.size W = b.size W * a.size W ∧
    ∀ I : Interp R, I.Dual W → ∀ M : DMat R, M.rows = b.size W → M.cols = a.size W →
      (r.mat I).mulVec M.flat = M.flat → M.mul (a.mat I) = (b.mat I).mul M) ?_ ?_
  · refine NetM.Meets.lift fun x hx r hr => ?_
    have ha' := ha.setG hW hx
    have hb' := hb.setG hW hx
    obtain ⟨r', h1, -, h2, h3, h4, h5⟩ := Rep.rshift_spec (hW.setG hx) ha'.wf hb'.wf ha'.key hb'.key hN
    rw [h1] at hr
    have := Except.ok.inj hr
    subst this
    exact ⟨Rep.Over.unsetG hW hx ⟨h2, h3⟩, h4, fun I hI M hM hM' hf => (h5 R I (setG_dual.2 hI) M hM hM').2.1 hf⟩
  · rintro r ⟨hr, hz, hint⟩
    refine NetM.Meets.bind (projector_net hW hs hsol hr) fun Pw hPw => ?_
    refine NetM.Meets.bind (projector_net hW hs hsol hb) fun Pb hPb => ?_
    exact NetM.Meets.pure ⟨rfl, rfl, ⟨r, hr.wf, hz, hint, hPw⟩, hPb⟩

include ha in
theorem LinearL.init_runs (ht : SolverRuns W gens solve) (hN : b.size W * a.size W ≤ N) :
    NetM.Runs W g gens (LinearL.init W gens solve a b) := by
  unfold LinearL.init
  refine NetM.Runs.bind (P := fun r => r.Over W g N) ?_ ?_ ?_
  · refine NetM.Runs.lift fun x hx => ?_
    have ha' := ha.setG hW hx
    have hb' := hb.setG hW hx
    obtain ⟨r', h1, -⟩ := Rep.rshift_spec (hW.setG hx) ha'.wf hb'.wf ha'.key hb'.key hN
    exact ⟨r', h1⟩
  · refine NetM.Meets.lift fun x hx r hr => ?_
    have ha' := ha.setG hW hx
    have hb' := hb.setG hW hx
    obtain ⟨r', h1, -, h2, h3, -⟩ := Rep.rshift_spec (hW.setG hx) ha'.wf hb'.wf ha'.key hb'.key hN
    rw [h1] at hr
    have := Except.ok.inj hr
    subst this
    exact Rep.Over.unsetG hW hx ⟨h2, h3⟩
  · intro r hr
    refine NetM.Runs.bind (NetM.Runs.solver fun x hx => Rep.projector_runs (W := W.setG x) (setG_gsized.2 hs) ht (hr.setG hW hx).wf)
      (projector_net hW hs hsol hr) fun Pw _ => ?_
    refine NetM.Runs.bind (NetM.Runs.solver fun x hx => Rep.projector_runs (W := W.setG x) (setG_gsized.2 hs) ht (hb.setG hW hx).wf)
      (projector_net hW hs hsol hb) fun Pb _ => ?_
    exact NetM.Runs.pure

end

omit [StarRing R] in
/-- Applying a linear layer commutes with every element that fixes what the generators fix. -/
theorem LinearL.Good.commutes {a b : Rep} (hb : b.WF W) {L : LinearL R} (h : L.Good W gens a b) {I : Interp R} (hI : I.Dual W)
    (ha : a.WF W) (hfix : Fixes W gens I) {w : DMat R} {β : List R} (hw : w.rows = b.size W) (hw' : w.cols = a.size W)
    (hβ : β.length = b.size W) : Commutes (a.size W) (b.size W) (L.apply w β) (a.mat I) (b.mat I) := by
  intro x hx
  obtain ⟨r, hr, hz, hint, hsq, hfw⟩ := h.w
  have sa := Rep.mat_sq hI.toSized ha
  have sb := Rep.mat_sq hI.toSized hb
  obtain ⟨M, hM⟩ : ∃ M, M = DMat.unflat w.rows w.cols (L.Pw.sem.mulVec w.flat) := ⟨_, rfl⟩
  have hM1 : M.rows = b.size W := by rw [hM]; exact hw
  have hM2 : M.cols = a.size W := by rw [hM]; exact hw'
  have hfl : M.flat = L.Pw.sem.mulVec w.flat := by
    rw [hM]; exact DMat.unflat_flat (by rw [DMat.length_mulVec, hsq.1, hz, hw, hw'])
  have hMf : M.mul (a.mat I) = (b.mat I).mul M := by
    refine hint I hI M hM1 hM2 ?_
    rw [hfl]
    exact hfix r hr _ (by rw [DMat.length_mulVec, hsq.1]) (hfw _ (by rw [DMat.length_flat, hw, hw', hz]))
  have hbf : (b.mat I).mulVec (L.Pb.sem.mulVec β) = L.Pb.sem.mulVec β :=
    hfix b hb _ (by rw [DMat.length_mulVec, h.b.1.1]) (h.b.2 _ hβ)
  have ev : ∀ z : List R, z.length = a.size W → L.apply w β z = .ok (zipWith (· + ·) (M.mulVec z) (L.Pb.sem.mulVec β)) := by
    intro z hz
    unfold LinearL.apply
    rw [if_pos ⟨by rw [hw, h.nout], by rw [hw', h.nin], by rw [hβ, h.nout], by rw [hz, h.nin]⟩, hM]
  refine ⟨_, ev x hx, by simp [hM1, h.b.1.1], ?_⟩
  rw [ev _ (by rw [DMat.length_mulVec, sa.1]), DMat.mulVec_add _ (by simp [hM1, h.b.1.1]), hbf, ← DMat.mulVec_mul _ _ _ (by rw [hM2, sa.1]),
    hMf, DMat.mulVec_mul _ _ _ (by rw [sb.2, hM1])]

end Verif
