import Verif.Lemmas.Depth
import Mathlib.Analysis.SpecialFunctions.Sigmoid

/-! C134: what a network computes, a network with more hidden layers computes as well. -/
namespace Verif
open List

section
variable {W : World} {g : Gid} {N : ℕ} {gens gens' : Gid → GenSet ℝ} {solve solve' : ℕ → LinOp ℝ → Py (DMat ℝ)} {rng : Rng}

/-- As `NetM.Pair`, for the last step of two computations: nothing is said about the states they end in. -/
def NetM.Both {α β : Type} (W : World) (g : Gid) (gens gens' : Gid → GenSet ℝ) (m : NetM ℝ α) (m' : NetM ℝ β) (P : α → β → Prop) : Prop :=
  ∀ σ τ, NetSt.OK W g gens σ → NetSt.OK W g gens' τ → σ.sg = τ.sg → σ.draws = τ.draws → ∀ a σ' b τ', m σ = .ok (a, σ') → m' τ = .ok (b, τ') → P a b

theorem NetM.Both.of {α β : Type} {m : NetM ℝ α} {m' : NetM ℝ β} {Q : α → Prop} {Q' : β → Prop} (h : NetM.Meets W g gens m Q)
    (h' : NetM.Meets W g gens' m' Q') : NetM.Both W g gens gens' m m' fun a b => Q a ∧ Q' b :=
  fun σ τ h1 h2 _ _ a σ' b τ' e1 e2 => ⟨(h σ h1 a σ' e1).2, (h' τ h2 b τ' e2).2⟩

theorem NetM.Both.bind {α β α' β' : Type} {m : NetM ℝ α} {m' : NetM ℝ α'} {f : α → NetM ℝ β} {f' : α' → NetM ℝ β'} {P : α → α' → Prop} {Q : β → β' → Prop}
    (hm : NetM.Pair W g gens gens' m m' P) (hf : ∀ a b, P a b → NetM.Both W g gens gens' (f a) (f' b) Q) : NetM.Both W g gens gens' (m >>= f) (m' >>= f') Q := by
  intro σ τ h1 h2 h3 h4 a σ' b τ' e1 e2
  change (m σ >>= fun p => f p.1 p.2) = _ at e1
  change (m' τ >>= fun p => f' p.1 p.2) = _ at e2
  cases hm1 : m σ with
  | error e => rw [hm1] at e1; exact absurd e1 (by simp [Bind.bind, Except.bind])
  | ok p =>
    cases hm2 : m' τ with
    | error e => rw [hm2] at e2; exact absurd e2 (by simp [Bind.bind, Except.bind])
    | ok q =>
      rw [hm1] at e1
      rw [hm2] at e2
      obtain ⟨⟨i1, i2, i3, i4⟩, h5⟩ := hm σ τ h1 h2 h3 h4 p.1 p.2 q.1 q.2 hm1 hm2
      exact hf p.1 q.1 h5 p.2 q.2 i1 i2 i3 i4 a σ' b τ' e1 e2

/-- What a network and one with `k` further hidden representations have in common: the blocks before them, and the last layer. -/
structure Emlp.Deeper (W : World) (g : Gid) (N : ℕ) (gens gens' : Gid → GenSet ℝ) (a : Rep) (mids : List Rep) (k : ℕ) (r o : Rep) (E E' : Emlp ℝ) : Prop where
  fields : E.repIn = a ∧ E.repOut = o ∧ E.hidden = mids ++ replicate k r
  fields' : E'.repIn = a ∧ E'.repOut = o ∧ E'.hidden = mids
  blocks : ∃ Bs Cs, E.blocks = Bs ++ Cs ∧ All3 (fun p B B' => Block.Paired W g N gens gens' p.1 p.2 B B') ((a :: mids).zip mids) Bs E'.blocks ∧
    ∀ B ∈ Cs, Block.Paired W g N gens gens r r B B
  last : E.last.Exact W g N gens r o
  last' : E'.last.Exact W g N gens' (mids.getLastD a) o

theorem zip_replicate_self {α : Type} (r : α) (k : ℕ) : (r :: replicate k r).zip (replicate k r) = replicate k (r, r) := by
  induction k with
  | zero => rfl
  | succ k ih => rw [replicate_succ, zip_cons_cons, ih]; rfl

theorem zip_extend {α : Type} (r : α) (k : ℕ) (mids : List α) : ∀ a : α, mids.getLastD a = r →
    (a :: (mids ++ replicate k r)).zip (mids ++ replicate k r) = (a :: mids).zip mids ++ replicate k (r, r) := by
  induction mids with
  | nil => intro a h; obtain rfl : a = r := h; exact zip_replicate_self a k
  | cons b t ih => intro a h; simp only [cons_append, zip_cons_cons]; rw [ih b (by rw [← h, getLastD_cons])]

theorem getLastD_extend {α : Type} (r : α) (k : ℕ) (mids : List α) (a : α) (h : mids.getLastD a = r) : (mids ++ replicate k r).getLastD a = r := by
  cases k with
  | zero => rw [replicate_zero, append_nil, h]
  | succ k => rw [replicate_succ', ← append_assoc, getLastD_concat]

variable (hW : W.SingleOK g N) (hs : GenSet.Sized W gens) (hs' : GenSet.Sized W gens') (hsol : SolverOK W gens solve) (hsol' : SolverOK W gens' solve')
include hW hs hs' hsol hsol'

theorem Emlp.build_deeper {a r o : Rep} {mids : List Rep} {k b : ℕ} (hla : mids.getLastD a = r)
    (hov : ∀ q ∈ a :: o :: (mids ++ replicate k r), q.Over W g N ∧ q.size W + q.gates W ≤ b)
    (hN : b * b ≤ N) (hrng : RngOK rng) : NetM.Both W g gens gens' (Emlp.build W gens solve rng a (mids ++ replicate k r) o) (Emlp.build W gens' solve' rng a mids o)
      (Emlp.Deeper W g N gens gens' a mids k r o) := by
  have hov' : ∀ q ∈ a :: o :: mids, q.Over W g N ∧ q.size W + q.gates W ≤ b := fun q hq => hov q (by
    simp only [mem_cons, mem_append] at hq ⊢; tauto)
  have hl := hov' (mids.getLastD a) (by rcases mem_cons.1 (mem_getLastD mids a) with h | h; exacts [mem_cons.2 (.inl h), mem_cons_of_mem _ (mem_cons_of_mem _ h)])
  have ho := hov o (by simp)
  rw [hla] at hl
  unfold Emlp.build
  rw [zip_extend r k mids a hla, mapM_append, bind_assoc]
  refine NetM.Both.bind (NetM.Pair.mapM (P := fun p B B' => Block.Paired W g N gens gens' p.1 p.2 B B') _ fun p hp => ?_) fun Bs Bs' hb => ?_
  · have h := chain_mem hov' hp
    exact Block.init_pair hW hs hs' hsol hsol' h.1.1 h.2.1.1 h.1.2 h.2.1.2 hN hrng
  · have m1 : NetM.Meets W g gens ((replicate k (r, r)).mapM fun p => Block.init W gens solve rng p.1 p.2)
        (Forall₂ (fun p B => Block.Paired W g N gens gens p.1 p.2 B B) (replicate k (r, r))) := by
      refine NetM.Meets.mapM _ fun p hp => ?_
      rw [(mem_replicate.1 hp).2]
      intro σ hσ B σ' hB
      obtain ⟨i, j⟩ := Block.init_pair hW hs hs hsol hsol hl.1 hl.1 hl.2 hl.2 hN hrng σ σ hσ hσ rfl rfl B σ' B σ' hB hB
      exact ⟨i.1, j⟩
    have m2 := LinearL.init_exact hW hs hsol hl.1 ho.1 (le_trans (Nat.mul_le_mul (by omega) (by omega)) hN)
    have m3 := LinearL.init_exact hW hs' hsol' hl.1 ho.1 (le_trans (Nat.mul_le_mul (by omega) (by omega)) hN)
    simp only [pure_bind, bind_assoc, getLastD_cons, getLastD_extend r k mids a hla, hla]
    intro σ τ h1 h2 h3 h4 E σ' E' τ' e1 e2
    have q1 : NetM.Meets W g gens (((replicate k (r, r)).mapM fun p => Block.init W gens solve rng p.1 p.2) >>= fun Cs => LinearL.init W gens solve r o >>= fun l =>
        (Pure.pure ⟨a, o, mids ++ replicate k r, Bs ++ Cs, l⟩ : NetM ℝ (Emlp ℝ))) fun E => (E.repIn = a ∧ E.repOut = o ∧ E.hidden = mids ++ replicate k r) ∧
          (∃ Cs, E.blocks = Bs ++ Cs ∧ ∀ B ∈ Cs, Block.Paired W g N gens gens r r B B) ∧ E.last.Exact W g N gens r o := by
      refine NetM.Meets.bind m1 fun Cs hC => NetM.Meets.bind m2 fun l hl => NetM.Meets.pure ⟨⟨rfl, rfl, rfl⟩, ⟨Cs, rfl, fun B hB => ?_⟩, hl⟩
      obtain ⟨i, hi, rfl⟩ := getElem_of_mem hB
      have := hC.get (by rw [hC.length_eq]; exact hi) hi
      simpa using this
    have q2 : NetM.Meets W g gens' (LinearL.init W gens' solve' r o >>= fun l =>
        (Pure.pure ⟨a, o, mids, Bs', l⟩ : NetM ℝ (Emlp ℝ))) fun E => (E.repIn = a ∧ E.repOut = o ∧ E.hidden = mids) ∧ E.blocks = Bs' ∧
          E.last.Exact W g N gens' r o :=
      NetM.Meets.bind m3 fun l hl => NetM.Meets.pure ⟨⟨rfl, rfl, rfl⟩, rfl, hl⟩
    obtain ⟨-, f, ⟨Cs, k1, k2⟩, k3⟩ := q1 σ h1 E σ' e1
    obtain ⟨-, f', l1, l2⟩ := q2 τ h2 E' τ' e2
    exact ⟨f, f', ⟨Bs, Cs, k1, by rw [l1]; exact hb, k2⟩, k3, by rw [hla]; exact l2⟩

end

section
variable {W : World} {g : Gid} {N : ℕ} {custom : ∀ k g, AtomRep ℝ (W.d g) (W.usize k g)} {lie disc : ∀ g, List (Matrix (Fin (W.d g)) (Fin (W.d g)) ℝ)}
  {solve : ℕ → LinOp ℝ → Py (DMat ℝ)} {σ σ' τ τ' : NetSt ℝ} {rng : Rng} {ein eout : Expr} {rin rout : Rep} {c : ChItem} {n bd L k fuel : ℕ}
  {E E' : Emlp ℝ}

/-- What the constructors of the two networks have in common. -/
theorem Emlp.init_deeper (hW : W.SingleOK g N) (hd : 2 ≤ W.d g) (hdN : W.d g ≤ N)
    (hsol : SolverOK W (gensOf W (stdAtoms W custom) lie disc) solve)
    (hσ : NetReach W g (gensOf W (stdAtoms W custom) lie disc) solve σ) (hτ : NetReach W g (gensOf W (stdAtoms W custom) lie disc) solve τ)
    (hsg : σ.sg = τ.sg) (hdr : σ.draws = τ.draws)
    (hrng : RngOK rng) (hin : RepArg W g N ein rin) (hout : RepArg W g N eout rout) (hc : c.Width W g N bd n)
    (hbi : ein.dim W g ≤ bd) (hbo : eout.dim W g ≤ bd) (hbf : bd < fuel) (hN : (2 * bd) * (2 * bd) ≤ N) (hL : 1 ≤ L)
    (hE : Emlp.init W (gensOf W (stdAtoms W custom) lie disc) solve rng fuel rin rout g (.one c) (L + k) σ = .ok (E, σ'))
    (hE' : Emlp.init W (gensOf W (stdAtoms W custom) lie disc) solve rng fuel rin rout g (.one c) L τ = .ok (E', τ')) :
    ∃ a r o, r.Over W g N ∧ ArgOf W g N eout o ∧
      Emlp.Deeper W g N (gensOf W (stdAtoms W custom) lie disc) (gensOf W (stdAtoms W custom) lie disc) a (replicate L r) k r o E E' := by
  have hbN : bd ≤ N := by nlinarith [Nat.zero_le bd]
  have key : NetM.Both W g (gensOf W (stdAtoms W custom) lie disc) (gensOf W (stdAtoms W custom) lie disc)
      (Emlp.init W (gensOf W (stdAtoms W custom) lie disc) solve rng fuel rin rout g (.one c) (L + k))
      (Emlp.init W (gensOf W (stdAtoms W custom) lie disc) solve rng fuel rin rout g (.one c) L) fun E E' =>
        ∃ a r o, r.Over W g N ∧ ArgOf W g N eout o ∧
          Emlp.Deeper W g N (gensOf W (stdAtoms W custom) lie disc) (gensOf W (stdAtoms W custom) lie disc) a (replicate L r) k r o E E' := by
    rw [Emlp.init_eq, Emlp.init_eq]
    refine NetM.Both.bind (NetM.Pair.of (hin.meets hW) (hin.meets hW) (NetM.Same.free (.rep _))) ?_
    rintro a _ ⟨rfl, ha, -⟩
    refine NetM.Both.bind (NetM.Pair.of (hout.meets hW) (hout.meets hW) (NetM.Same.free (.rep _))) ?_
    rintro o _ ⟨rfl, ho, -⟩
    simp only [parseCh, bind_assoc, pure_bind]
    refine NetM.Both.bind (NetM.Pair.of (hc.meets hW hd hdN hrng hbN hbf) (hc.meets hW hd hdN hrng hbN hbf) (NetM.Same.free (ChItem.parse_free _ _))) ?_
    rintro r _ ⟨rfl, hr, -⟩
    have hm : MidsOf W g N bd (.one c) (replicate (L + k) n) (replicate L r ++ replicate k r) := by
      rw [replicate_append_replicate]
      refine ⟨by rw [map_replicate, hr.2.1], fun q hq => ?_, fun hi q hq => ?_⟩
      · rw [(mem_replicate.1 hq).2]; exact ⟨hr.1, hr.2.2.1⟩
      · rw [(mem_replicate.1 hq).2]
        cases hi with
        | one m hm =>
          refine hr.2.2.2 m rfl ?_
          cases hc; omega
    intro σ τ h1 h2 h3 h4 E σ' E' τ' e1 e2
    rw [← replicate_append_replicate] at e1
    have hlast : (replicate L r).getLastD a = r := by
      obtain ⟨l, rfl⟩ : ∃ l, L = l + 1 := ⟨L - 1, by omega⟩
      rw [replicate_succ', getLastD_concat]
    have := Emlp.build_deeper hW gensOf_sized gensOf_sized hsol hsol hlast
      (init_hov hW hd hdN hrng hbN hbf (.one (L := L + k) c n hc) (gensOf_sized (custom := custom) (lie := lie) (disc := disc)) hsol hin hout hbi hbo hN ha ho hm) hN hrng
      σ τ h1 h2 h3 h4 E σ' E' τ' e1 e2
    exact ⟨a, r, o, hr.1, ho, this⟩
  exact key σ τ (hσ.ok hsol) (hτ.ok hsol) hsg hdr E σ' E' τ' hE hE'

/-- Blocks in turn, and more of them. -/
theorem applyBlocks_append (c : ℝ) (act : ℝ → ℝ) (l m : List (Block ℝ × BlockParams ℝ)) : ∀ x : List ℝ,
    applyBlocks W c act (l ++ m) x = applyBlocks W c act l x >>= applyBlocks W c act m := by
  induction l with
  | nil => intro x; rfl
  | cons q t ih =>
    intro x
    simp only [cons_append, applyBlocks]
    cases q.1.apply W c act q.2 x with
    | error e => rfl
    | ok y => exact ih y

/-- Blocks that do nothing. -/
theorem blocks_ident {r : Rep} {c : ℝ} {act : ℝ → ℝ} {y : List ℝ} (Cs : List (Block ℝ)) (h : ∀ B ∈ Cs, B.apply W c act (BlockParams.ident W r B) y = .ok y) :
    applyBlocks W c act (Cs.zip (Cs.map (BlockParams.ident W r))) y = .ok y := by
  induction Cs with
  | nil => rfl
  | cons B t ih =>
    simp only [map_cons, zip_cons_cons, applyBlocks]
    rw [h B (by simp)]
    exact ih fun B hB => h B (by simp [hB])

/-- **C134.** Let all summands of the hidden representation be gated.  For every choice of the parameters of a network with `L ≥ 1` hidden layers there are
parameters of the network with `L + k` hidden layers, built from the same arguments with the same random draws, for which it returns the same outputs (with every
activation function that is 1/2 at 0, as the sigmoid is). -/
theorem C134_deeper (hW : W.SingleOK g N) (hd : 2 ≤ W.d g) (hdN : W.d g ≤ N) (ok : GroupsOK W custom lie disc)
    (hsol : SolverOK W (gensOf W (stdAtoms W custom) lie disc) solve)
    (hσ : NetReach W g (gensOf W (stdAtoms W custom) lie disc) solve σ) (hτ : NetReach W g (gensOf W (stdAtoms W custom) lie disc) solve τ)
    (hsg : σ.sg = τ.sg) (hdr : σ.draws = τ.draws)
    (hrng : RngOK rng) (hin : RepArg W g N ein rin) (hout : RepArg W g N eout rout) (hc : c.Width W g N bd n)
    (hbi : ein.dim W g ≤ bd) (hbo : eout.dim W g ≤ bd) (hbf : bd < fuel) (hN : (2 * bd) * (2 * bd) ≤ N) (hL : 1 ≤ L)
    (hE : Emlp.init W (gensOf W (stdAtoms W custom) lie disc) solve rng fuel rin rout g (.one c) (L + k) σ = .ok (E, σ'))
    (hE' : Emlp.init W (gensOf W (stdAtoms W custom) lie disc) solve rng fuel rin rout g (.one c) L τ = .ok (E', τ'))
    (hg : ∀ r ∈ E'.hidden, ∀ k ∈ r.summands W, k.Gated W) :
    E.hidden.length = L + k ∧ E'.hidden.length = L ∧
    ∀ ps w β, E'.Shaped ps w β → ∃ ps₁ w₁ β₁, E.Shaped ps₁ w₁ β₁ ∧ ∀ (c : ℝ) (act : ℝ → ℝ), act 0 = 1 / 2 →
      ∀ x y : List ℝ, E'.apply W c act ps w β x = .ok y → E.apply W c act ps₁ w₁ β₁ x = .ok y := by
  have hbN : bd ≤ N := by nlinarith [Nat.zero_le bd]
  obtain ⟨a, r, o, hr, ho, dp⟩ := Emlp.init_deeper hW hd hdN hsol hσ hτ hsg hdr hrng hin hout hc hbi hbo hbf hN hL hE hE'
  obtain ⟨-, a', o', mids', ha', ho', hm', good⟩ := Emlp.init_meets hW hd hdN hrng hbN hbf (.one (L := L) c n hc)
    (gensOf_sized (custom := custom) (lie := lie) (disc := disc)) hsol hin hout hbi hbo hN τ (hτ.ok hsol) E' τ' hE'
  have hmids : mids' = replicate L r := good.fields.2.2.symm.trans dp.fields'.2.2
  have hlast : (replicate L r).getLastD a = r := by
    obtain ⟨l, rfl⟩ : ∃ l, L = l + 1 := ⟨L - 1, by omega⟩
    rw [replicate_succ', getLastD_concat]
  refine ⟨by rw [dp.fields.2.2]; simp, by rw [dp.fields'.2.2]; simp, fun ps w β hp => ?_⟩
  obtain ⟨Bs, Cs, hBs, hall, hC⟩ := dp.blocks
  have hl' := dp.last'
  rw [hlast] at hl'
  obtain ⟨b1, b2⟩ := blocks_restrict ok ok (fun _ h => h) hall hp.blocks
  have hl := LinearL.restrict ok ok (fun _ h => h) ho.1 dp.last hl' hp.rows hp.cols hp.b
  refine ⟨zipWith (fun B p => p.used B) E'.blocks ps ++ Cs.map (BlockParams.ident W r), _, _, ⟨?_, (hl []).1, (hl []).2.1, (hl []).2.2.1⟩, fun c act hact x y hy => ?_⟩
  · rw [hBs]
    exact rel_append b1 (forall₂_map_right_iff.2 (forall₂_same.2 fun B hB => (Block.ident ok hr (hC B hB)).1))
  · have hcan : r.CanonicalSum W := by
      by_contra hcon
      obtain ⟨e, he⟩ := good.raises (fun r hr => (hm'.2.1 r hr).1) ⟨r, by rw [hmids]; exact mem_replicate.2 ⟨by omega, rfl⟩, hcon⟩ c act (w := w) (β := β)
        hp.blocks.length_eq.symm x
      rw [he] at hy
      cases hy
    have hgr : ∀ k ∈ r.summands W, k.Gated W := hg r (by rw [dp.fields'.2.2]; exact mem_replicate.2 ⟨by omega, rfl⟩)
    unfold Emlp.apply at hy ⊢
    rw [hBs, zip_append b1.length_eq, applyBlocks_append, b2]
    cases hz : applyBlocks W c act (E'.blocks.zip ps) x with
    | error e => rw [hz] at hy; cases hy
    | ok z =>
      rw [hz] at hy
      have hy' : E'.last.apply w β z = .ok y := hy
      have hzl : z.length = r.size W := by
        unfold LinearL.apply at hy'
        split_ifs at hy' with hq
        rw [hq.2.2.2, hl'.nin]
      show (applyBlocks W c act (Cs.zip (Cs.map (BlockParams.ident W r))) z >>= _) = _
      rw [blocks_ident Cs fun B hB => (Block.ident ok hr (hC B hB)).2 hgr hcan c act hact z hzl]
      exact (hl z).2.2.2.trans hy'

end

/-! ## Hidden layers of two vectors each -/

/-- `2V` for the group 0 -/
def twoVec : Rep := .sum ⟨[(.fac (.atom (.vec 0 (some 0))), 2)], [0, 1, 2, 3, 4, 5]⟩

theorem twoVec_arg : RepArg exW 0 144 (.add (.rep 0) (.rep 0)) twoVec :=
  ⟨⟨⟨by decide, Or.inl rfl⟩, by decide, Or.inl rfl⟩, by decide, Or.inr ⟨rfl, fun k hk => by
    obtain rfl : k = .fac (.atom (.vec 0 (some 0))) := by simpa [Rep.keys, Counter.keys, twoVec] using hk
    trivial⟩⟩

theorem twoVec_call (x : Option Gid) : Rep.call (exW.setG x) (some 0) x twoVec = .ok (twoVec, x) := rfl

theorem twoVec_gated : ∀ k ∈ twoVec.summands exW, k.Gated exW := by
  intro k hk
  have : k = .fac (.atom (.vec 0 (some 0))) := by
    have h : twoVec.summands exW = [.fac (.atom (.vec 0 (some 0))), .fac (.atom (.vec 0 (some 0)))] := rfl
    rw [h] at hk
    simpa using hk
  subst this
  exact ⟨by simp, .vec 0 (some 0), by simp [Key.letters, Fac.letters], by simp [Atom.ofPerm, exW]⟩

theorem twoVec_net {rng : Rng} (hr : RngOK rng) {solve : ℕ → LinOp ℝ → Py (DMat ℝ)}
    (h1 : SolverOK exW (gensOf exW (stdAtoms exW fun k g => trivialAtom _ _) rotLies fun _ => []) solve)
    (h2 : SolverRuns exW (gensOf exW (stdAtoms exW fun k g => trivialAtom _ _) rotLies fun _ => []) solve) (L : ℕ) :
    ∃ E σ', Emlp.init exW (gensOf exW (stdAtoms exW fun k g => trivialAtom _ _) rotLies fun _ => []) solve rng 7 Rep.V (.key .scalar) 0
        (.one (.rep twoVec)) L ⟨freshSt, none, 0⟩ = .ok (E, σ') ∧ E.hidden = replicate L twoVec ∧
      ∀ ps w β, E.Shaped ps w β → ∀ (c : ℝ) (act : ℝ → ℝ) (x : List ℝ), x.length = 3 → ∃ y, E.apply exW c act ps w β x = .ok y := by
  have hW : exW.SingleOK 0 144 := exW_single 0 144 (by decide)
  have ha : RepArg exW 0 144 (.rep 0) Rep.V := ⟨⟨by decide, Or.inl rfl⟩, by decide, Or.inl rfl⟩
  have ho : RepArg exW 0 144 .scalar (.key .scalar) := ⟨trivial, by decide, Or.inl rfl⟩
  have hc : ChItem.Width exW 0 144 6 (.rep twoVec) 6 := .rep _ _ twoVec_arg (by decide)
  have hch : Ch.Widths exW 0 144 6 L (.one (.rep twoVec)) (replicate L 6) := .one _ _ hc
  have hσ : NetReach exW 0 (gensOf exW (stdAtoms exW fun k g => trivialAtom _ _) rotLies fun _ => []) solve ⟨freshSt, none, 0⟩ := .start none 0 fun h e => by simp at e
  have hov : ∀ a o : Rep, ArgOf exW 0 144 (.rep 0) a → ArgOf exW 0 144 .scalar o → MidsOf exW 0 144 6 (.one (.rep twoVec)) (replicate L 6) (replicate L twoVec) →
      ∀ r ∈ a :: o :: replicate L twoVec, r.Over exW 0 144 ∧ r.size exW + r.gates exW ≤ 2 * 6 := fun a o ha' ho' hm =>
    init_hov hW (by decide) (by decide) hr (by decide) (fuel := 7) (by decide) hch (gensOf_sized (custom := fun k g => trivialAtom _ _) (lie := rotLies) (disc := fun _ => []))
      h1 ha ho (by decide) (by decide) (by decide) ha' ho' hm
  have hmm : NetM.Meets exW 0 (gensOf exW (stdAtoms exW fun k g => trivialAtom _ _) rotLies fun _ => []) (parseCh exW rng 7 0 L (.one (.rep twoVec)) : NetM ℝ (List Rep))
      fun rs => rs = replicate L twoVec ∧ MidsOf exW 0 144 6 (.one (.rep twoVec)) (replicate L 6) rs := by
    intro σ hσ rs σ' he
    obtain ⟨i, j⟩ := parseCh_meets hW (by decide) (by decide) hr (by decide) (by decide) hch σ hσ rs σ' he
    refine ⟨i, ?_, j⟩
    have e : (parseCh exW rng 7 0 L (.one (.rep twoVec)) : NetM ℝ (List Rep)) σ = .ok (replicate L twoVec, σ) := rfl
    rw [e] at he
    exact (Prod.mk.inj (Except.ok.inj he)).1.symm
  have hrun : NetM.Runs exW 0 (gensOf exW (stdAtoms exW fun k g => trivialAtom _ _) rotLies fun _ => [])
      (Emlp.init exW (gensOf exW (stdAtoms exW fun k g => trivialAtom _ _) rotLies fun _ => []) solve rng 7 Rep.V (.key .scalar) 0 (.one (.rep twoVec)) L) := by
    rw [Emlp.init_eq]
    refine NetM.Runs.bind (ha.runs hW) (ha.meets hW) fun a ha' => NetM.Runs.bind (ho.runs hW) (ho.meets hW) fun o ho' =>
      NetM.Runs.bind (parseCh_runs hW (by decide) (by decide) hr (by decide) (by decide) hch) hmm fun m hm => ?_
    obtain ⟨rfl, hm⟩ := hm
    exact Emlp.build_runs hW gensOf_sized h1 hr (hov a o ha' ho' hm) (by decide) h2 fun r hr => ⟨_, (mem_replicate.1 hr).2⟩
  obtain ⟨E, σ', hE⟩ := hrun _ (hσ.ok h1)
  have hmeets : NetM.Meets exW 0 (gensOf exW (stdAtoms exW fun k g => trivialAtom _ _) rotLies fun _ => [])
      (Emlp.init exW (gensOf exW (stdAtoms exW fun k g => trivialAtom _ _) rotLies fun _ => []) solve rng 7 Rep.V (.key .scalar) 0 (.one (.rep twoVec)) L)
      fun E => ∃ a o, ArgOf exW 0 144 (.rep 0) a ∧ ArgOf exW 0 144 .scalar o ∧ MidsOf exW 0 144 6 (.one (.rep twoVec)) (replicate L 6) (replicate L twoVec) ∧
        E.Good exW 0 144 (gensOf exW (stdAtoms exW fun k g => trivialAtom _ _) rotLies fun _ => []) a (replicate L twoVec) o := by
    rw [Emlp.init_eq]
    refine NetM.Meets.bind (ha.meets hW) fun a ha' => NetM.Meets.bind (ho.meets hW) fun o ho' => NetM.Meets.bind hmm fun m hm => ?_
    obtain ⟨rfl, hm⟩ := hm
    intro σ hσ E σ' hE
    obtain ⟨i, j⟩ := Emlp.build_meets hW gensOf_sized h1 hr (hov a o ha' ho' hm) (by decide) σ hσ E σ' hE
    exact ⟨i, a, o, ha', ho', hm, j⟩
  obtain ⟨-, a, o, ha', ho', hm, good⟩ := hmeets _ (hσ.ok h1) E σ' hE
  refine ⟨E, σ', hE, good.fields.2.2, fun ps w β hp c act x hx => ?_⟩
  obtain ⟨z, hz, -⟩ := good.commutes hW ha'.1 ho'.1 (fun r hr => ⟨(hm.2.1 r hr).1, by rw [(mem_replicate.1 hr).2]; exact ⟨_, rfl, rfl⟩⟩) c act
    (elem_dual (g := 0) rot_groups .one) (elem_fixes rot_groups .one) (elem_perm rot_groups .one) hp x (by rw [hx, ha'.2.1]; rfl)
  exact ⟨z, hz⟩

/-- the activation function of the code -/
example : Real.sigmoid 0 = 1 / 2 := by rw [Real.sigmoid_def]; norm_num

/-- rotations about an axis: networks from a vector to a scalar with one, two, … hidden layers of two vectors each -/
example (L k : ℕ) (hL : 1 ≤ L) : ∃ (solve : ℕ → LinOp ℝ → Py (DMat ℝ)) (rng : Rng) (E E' : Emlp ℝ) (σ' τ' : NetSt ℝ),
    Emlp.init exW (gensOf exW (stdAtoms exW fun k g => trivialAtom _ _) rotLies fun _ => []) solve rng 7 Rep.V (.key .scalar) 0
      (.one (.rep twoVec)) (L + k) ⟨freshSt, none, 0⟩ = .ok (E, σ') ∧
    Emlp.init exW (gensOf exW (stdAtoms exW fun k g => trivialAtom _ _) rotLies fun _ => []) solve rng 7 Rep.V (.key .scalar) 0
      (.one (.rep twoVec)) L ⟨freshSt, none, 0⟩ = .ok (E', τ') ∧
    (∀ ps w β, E'.Shaped ps w β → ∀ (c : ℝ) (act : ℝ → ℝ) (x : List ℝ), x.length = 3 → ∃ y, E'.apply exW c act ps w β x = .ok y) ∧
    ∀ ps w β, E'.Shaped ps w β → ∃ ps₁ w₁ β₁, E.Shaped ps₁ w₁ β₁ ∧ ∀ (c : ℝ) (act : ℝ → ℝ), act 0 = 1 / 2 →
      ∀ x y : List ℝ, E'.apply exW c act ps w β x = .ok y → E.apply exW c act ps₁ w₁ β₁ x = .ok y := by
  obtain ⟨s, h1, h2⟩ := exists_solver ℝ
  obtain ⟨rng, hr⟩ := exists_rng
  obtain ⟨E, σ', hE, -, -⟩ := twoVec_net hr (h1 _ _) (fun _ _ C _ => h2 C) (L + k)
  obtain ⟨E', τ', hE', hh, ht⟩ := twoVec_net hr (h1 _ _) (fun _ _ C _ => h2 C) L
  have ha : RepArg exW 0 144 (.rep 0) Rep.V := ⟨⟨by decide, Or.inl rfl⟩, by decide, Or.inl rfl⟩
  have ho : RepArg exW 0 144 .scalar (.key .scalar) := ⟨trivial, by decide, Or.inl rfl⟩
  have hσ : ∀ (gs : Gid → GenSet ℝ) sol, NetReach exW 0 gs sol ⟨freshSt, none, 0⟩ := fun _ _ => .start none 0 fun h e => by simp at e
  exact ⟨_, rng, E, E', σ', τ', hE, hE', ht, (C134_deeper (exW_single 0 144 (by decide)) (by decide) (by decide) rot_groups (h1 _ _) (hσ _ _) (hσ _ _) rfl rfl hr ha ho
    (.rep (b := 6) _ _ twoVec_arg (by decide)) (by decide) (by decide) (by decide) (by decide) hL hE hE'
    (fun r hr' k hk => by rw [hh] at hr'; rw [(mem_replicate.1 hr').2] at hk; exact twoVec_gated k hk)).2.2⟩

end Verif
