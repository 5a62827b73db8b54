import Verif.Props.LinearAlg

/-! C136: what a network computes before or after Linear layers, networks with other inputs and outputs compute as well. -/
namespace Verif
open List

/-! `Scalar.G` stays what it is when representations are called on the group it is set to. -/

theorem Key.call_sg {W : World} {g : Gid} {k k' : Key} {x : Option Gid} (h : Key.call W (some g) (some g) k = .ok (k', x)) : x = some g := by
  match k with
  | .scalar => exact ((Prod.mk.inj (Except.ok.inj h)).2).symm
  | .fac (.atom a) => exact ((Prod.mk.inj (Except.ok.inj h)).2).symm
  | .fac (.prod p) => cases h
  | .dprod d => cases h

theorem callItems_sg {W : World} {g : Gid} : ∀ (c acc acc' : Counter Key) {x : Option Gid}, callItems W (some g) (some g) acc c = .ok (acc', x) → x = some g
  | [], acc, acc', x, h => ((Prod.mk.inj (Except.ok.inj h)).2).symm
  | (k, n) :: t, acc, acc', x, h => by
    change (Key.call W (some g) (some g) k >>= fun r => callItems W (some g) r.2 (dictSet r.1 n acc) t) = _ at h
    cases hk : Key.call W (some g) (some g) k with
    | error e => rw [hk] at h; cases h
    | ok r =>
      rw [hk] at h
      obtain ⟨r1, r2⟩ := r
      obtain rfl := Key.call_sg hk
      exact callItems_sg t _ acc' h

mutual
theorem Rep.call_sg {W : World} {g : Gid} : ∀ (r r' : Rep) {x : Option Gid}, Rep.call W (some g) (some g) r = .ok (r', x) → x = some g
  | .key k, r', x, h => by
    rw [Rep.call] at h
    cases hk : Key.call W (some g) (some g) k with
    | error e => rw [hk] at h; cases h
    | ok r =>
      rw [hk] at h
      obtain ⟨r1, r2⟩ := r
      obtain rfl := Key.call_sg hk
      exact ((Prod.mk.inj (Except.ok.inj h)).2).symm
  | .sum s, r', x, h => by
    rw [Rep.call] at h
    cases hk : callItems W (some g) (some g) [] s.c with
    | error e => rw [hk] at h; cases h
    | ok r =>
      rw [hk] at h
      obtain ⟨r1, r2⟩ := r
      obtain rfl := callItems_sg _ _ _ hk
      exact ((Prod.mk.inj (Except.ok.inj h)).2).symm
  | .dsum l, r', x, h => by
    rw [Rep.call] at h
    cases hk : Rep.callList W (some g) (some g) l with
    | error e => rw [hk] at h; cases h
    | ok r =>
      rw [hk] at h
      obtain ⟨r1, r2⟩ := r
      obtain rfl := Rep.callList_sg l _ hk
      change (mkSum (W.setG (some g)) r1 none >>= fun s => Except.ok (Rep.sum s, some g)) = _ at h
      cases hm : mkSum (W.setG (some g)) r1 none with
      | error e => rw [hm] at h; cases h
      | ok s => rw [hm] at h; exact ((Prod.mk.inj (Except.ok.inj h)).2).symm
  | .dprod l, r', x, h => by
    rw [Rep.call] at h
    cases hk : Rep.callList W (some g) (some g) l with
    | error e => rw [hk] at h; cases h
    | ok r =>
      rw [hk] at h
      obtain ⟨r1, r2⟩ := r
      obtain rfl := Rep.callList_sg l _ hk
      change (Rep.mulList (W.setG (some g)) r1 >>= fun s => Except.ok (s, some g)) = _ at h
      cases hm : Rep.mulList (W.setG (some g)) r1 with
      | error e => rw [hm] at h; cases h
      | ok s => rw [hm] at h; exact ((Prod.mk.inj (Except.ok.inj h)).2).symm
theorem Rep.callList_sg {W : World} {g : Gid} : ∀ (l l' : List Rep) {x : Option Gid}, Rep.callList W (some g) (some g) l = .ok (l', x) → x = some g
  | [], l', x, h => by
    rw [Rep.callList] at h
    exact ((Prod.mk.inj (Except.ok.inj h)).2).symm
  | r :: t, l', x, h => by
    rw [Rep.callList] at h
    cases hk : Rep.call W (some g) (some g) r with
    | error e => rw [hk] at h; cases h
    | ok q =>
      rw [hk] at h
      obtain ⟨r1, r2⟩ := q
      obtain rfl := Rep.call_sg r _ hk
      change (Rep.callList W (some g) (some g) t >>= fun xs => Except.ok (r1 :: xs.1, xs.2)) = _ at h
      cases hm : Rep.callList W (some g) (some g) t with
      | error e => rw [hm] at h; cases h
      | ok q' =>
        rw [hm] at h
        obtain ⟨q1, q2⟩ := q'
        obtain rfl := Rep.callList_sg t _ hm
        exact ((Prod.mk.inj (Except.ok.inj h)).2).symm
end

/-- The first argument of a constructor. -/
theorem NetM.call_step {W : World} {g : Gid} {r : Rep} {β : Type} {f : Rep → NetM ℝ β} {σ σ' : NetSt ℝ} {b : β} (hsg : σ.sg = some g)
    (h : ((NetM.rep fun sg => Rep.call (W.setG sg) (some g) sg r : NetM ℝ Rep) >>= f) σ = .ok (b, σ')) :
    ∃ a σ₁, (NetM.rep fun sg => Rep.call (W.setG sg) (some g) sg r : NetM ℝ Rep) σ = .ok (a, σ₁) ∧ σ₁.sg = some g ∧ σ₁.draws = σ.draws ∧ f a σ₁ = .ok (b, σ') := by
  change ((NetM.rep fun sg => Rep.call (W.setG sg) (some g) sg r : NetM ℝ Rep) σ >>= fun p => f p.1 p.2) = _ at h
  cases hm : (NetM.rep fun sg => Rep.call (W.setG sg) (some g) sg r : NetM ℝ Rep) σ with
  | error e => rw [hm] at h; cases h
  | ok p =>
    rw [hm] at h
    refine ⟨p.1, p.2, rfl, ?_, ?_, h⟩
    all_goals
      unfold NetM.rep at hm
      rw [hsg] at hm
      beta_reduce at hm
      cases hc : Rep.call (W.setG (some g)) (some g) (some g) r with
      | error e => rw [hc] at hm; cases hm
      | ok q =>
        rw [hc] at hm
        obtain ⟨q1, q2⟩ := q
        have := Rep.call_sg _ _ hc
        cases Except.ok.inj hm
        first | exact this | rfl

section
variable {W : World} {g : Gid} {N : ℕ} {custom : ∀ k g, AtomRep ℝ (W.d g) (W.usize k g)}
  {lie disc : ∀ g, List (Matrix (Fin (W.d g)) (Fin (W.d g)) ℝ)} {solve : ℕ → LinOp ℝ → Py (DMat ℝ)} {a a' o o' : Rep} {rng : Rng}

/-- C104 for the layers inside a network. -/
theorem LinearL.Exact.iff (ok : GroupsOK W custom lie disc) (ha : a.Over W g N) (ho : o.Over W g N) {L : LinearL ℝ}
    (h : L.Exact W g N (gensOf W (stdAtoms W custom) lie disc) a o) {f : List ℝ → List ℝ} : L.Computes W a o f ↔ AE W g custom lie disc a o f := by
  obtain ⟨nin, nout, ⟨r, hr, hz, hint, hPw⟩, hPb⟩ := h
  have ev : ∀ (w : DMat ℝ) (b x : List ℝ), w.rows = o.size W → w.cols = a.size W → b.length = o.size W → x.length = a.size W →
      L.apply w b x = .ok (zipWith (· + ·) ((DMat.unflat (o.size W) (a.size W) (L.Pw.sem.mulVec w.flat)).mulVec x) (L.Pb.sem.mulVec b)) := by
    intro w b x h1 h2 h3 h4
    unfold LinearL.apply
    rw [if_pos ⟨by rw [h1, nout], by rw [h2, nin], by rw [h3, nout], by rw [h4, nin]⟩, h1, h2]
  have q1 : ∀ h, (a.mat (Interp.elem W custom g h)).IsSq (a.size W) := fun h => Rep.mat_sq (at_sized _) ha.wf
  have q2 : ∀ h, (o.mat (Interp.elem W custom g h)).IsSq (o.size W) := fun h => Rep.mat_sq (at_sized _) ho.wf
  constructor
  · rintro ⟨w, b, h1, h2, h3, h4⟩
    obtain ⟨M, hMd⟩ : ∃ M : DMat ℝ, M = DMat.unflat (o.size W) (a.size W) (L.Pw.sem.mulVec w.flat) := ⟨_, rfl⟩
    have hM : M.rows = o.size W := by rw [hMd]; rfl
    have hM' : M.cols = a.size W := by rw [hMd]; rfl
    have hfl : M.flat = L.Pw.sem.mulVec w.flat := by rw [hMd]; exact DMat.unflat_flat (by rw [DMat.length_mulVec, hPw.sq.1, hz])
    have hwl : w.flat.length = r.size W := by rw [DMat.length_flat, h1, h2, hz]
    have hbl : (L.Pb.sem.mulVec b).length = o.size W := by rw [DMat.length_mulVec, hPb.sq.1]
    have hf : ∀ x : List ℝ, x.length = a.size W → f x = zipWith (· + ·) (M.mulVec x) (L.Pb.sem.mulVec b) := fun x hx => by
      rw [hMd]; exact Except.ok.inj ((h4 x hx).symm.trans (ev w b x h1 h2 h3 hx))
    refine ⟨⟨M, _, hM, hM', hbl, hf⟩, fun t ht x hx => ?_⟩
    have c1 : M.mul (a.mat (Interp.elem W custom g t)) = (o.mat (Interp.elem W custom g t)).mul M := by
      refine (hint _ (elem_dual ok ht) M hM hM').1 ?_
      have := hPw.range _ hwl
      rw [← hfl] at this
      exact (fixed_iff_group ok hr (by rw [DMat.length_flat, hM, hM', hz])).1 this t ht
    have c2 := (fixed_iff_group ok ho hbl).1 (hPb.range _ h3) t ht
    rw [hf x hx, hf _ (by rw [DMat.length_mulVec, (q1 t).1]), DMat.mulVec_add _ (by rw [DMat.length_mulVec, hM, hbl]), c2,
      ← DMat.mulVec_mul _ _ _ (by rw [hM', (q1 t).1]), c1, DMat.mulVec_mul _ _ _ (by rw [(q2 t).2, hM])]
  · rintro ⟨⟨M, c, hM, hM', hc, hf⟩, heq⟩
    have hcom := fun h hh => affine_commutes hM hM' hc (q1 h) (q2 h) hf (heq h hh)
    have hl : M.flat.length = r.size W := by rw [DMat.length_flat, hM, hM', hz]
    have hw : L.Pw.sem.mulVec M.flat = M.flat :=
      (hPw.fix _ hl).1 ((fixed_iff_group ok hr hl).2 fun h hh => (hint _ (elem_dual ok hh) M hM hM').2 (hcom h hh).1)
    have hb : L.Pb.sem.mulVec c = c := (hPb.fix _ hc).1 ((fixed_iff_group ok ho hc).2 fun h hh => (hcom h hh).2)
    refine ⟨M, c, hM, hM', hc, fun x hx => ?_⟩
    rw [ev M c x hM hM' hc hx, hw, hb, hf x hx, ← hM, ← hM', DMat.flat_unflat]

/-- every choice of weight and bias gives one of the functions -/
theorem LinearL.Exact.some {gens : Gid → GenSet ℝ} {L : LinearL ℝ} (h : L.Exact W g N gens a o) {w : DMat ℝ} {b : List ℝ} (h1 : w.rows = L.nout) (h2 : w.cols = L.nin)
    (h3 : b.length = L.nout) : ∃ f, L.Computes W a o f ∧ ∀ x : List ℝ, x.length = a.size W → L.apply w b x = .ok (f x) := by
  have : ∀ x : List ℝ, x.length = a.size W → L.apply w b x = .ok (zipWith (· + ·) ((DMat.unflat w.rows w.cols (L.Pw.sem.mulVec w.flat)).mulVec x) (L.Pb.sem.mulVec b)) :=
    fun x hx => if_pos ⟨h1, h2, h3, by rw [hx, h.nin]⟩
  exact ⟨_, ⟨w, b, h1.trans h.nout, h2.trans h.nin, h3.trans h.nout, this⟩, this⟩

/-- Two first blocks, for different inputs. -/
structure Block.Kin (W : World) (g : Gid) (N : ℕ) (gens : Gid → GenSet ℝ) (a a' r : Rep) (B B' : Block ℝ) : Prop where
  rep : B.rep = B'.rep
  lin : ∃ g1 : Rep, g1.Over W g N ∧ B.lin.Exact W g N gens a g1 ∧ B'.lin.Exact W g N gens a' g1
  bil : B.bil = B'.bil

/-- Two networks that differ in the inputs and outputs only. -/
structure Emlp.Kin (W : World) (g : Gid) (N : ℕ) (gens : Gid → GenSet ℝ) (a a' : Rep) (mids : List Rep) (o o' : Rep) (E E' : Emlp ℝ) : Prop where
  fields : E.repIn = a ∧ E.repOut = o ∧ E.hidden = mids
  fields' : E'.repIn = a' ∧ E'.repOut = o' ∧ E'.hidden = mids
  none : mids = [] → E.blocks = [] ∧ E'.blocks = []
  some : ∀ r t, mids = r :: t → ∃ B Bs B' Bs', E.blocks = B :: Bs ∧ E'.blocks = B' :: Bs' ∧ Block.Kin W g N gens a a' r B B' ∧
    All3 (fun p B B' => Block.Paired W g N gens gens p.1 p.2 B B') ((r :: t).zip t) Bs Bs'
  last : E.last.Exact W g N gens (mids.getLastD a) o
  last' : E'.last.Exact W g N gens (mids.getLastD a') o'

end

section
variable {W : World} {g : Gid} {N : ℕ} {gens : Gid → GenSet ℝ} {solve : ℕ → LinOp ℝ → Py (DMat ℝ)} {a a' o o' : Rep} {rng : Rng}
variable (hW : W.SingleOK g N) (hs : GenSet.Sized W gens) (hsol : SolverOK W gens solve)

theorem LinearL.init_same_kin (a a' b b' : Rep) :
    NetM.Same (LinearL.init W gens solve a b) (LinearL.init W gens solve a' b') fun _ _ => True := by
  have lift : ∀ {α β : Type} (f : World → Py α) (f' : World → Py β), NetM.Same (NetM.rep (RepM.lift W f) : NetM ℝ α) (NetM.rep (RepM.lift W f') : NetM ℝ β) fun _ _ => True := by
    intro α β f f' σ τ h1 h2 x σ' y τ' e1 e2
    have key : ∀ {γ : Type} (f : World → Py γ) (σ : NetSt ℝ) x σ', (NetM.rep (RepM.lift W f) : NetM ℝ γ) σ = .ok (x, σ') → σ' = σ := by
      intro γ f σ x σ' e
      unfold NetM.rep RepM.lift at e
      cases hf : f (W.setG σ.sg) with
      | error e' => rw [hf] at e; cases e
      | ok z => rw [hf] at e; exact ((Prod.mk.inj (Except.ok.inj e)).2).symm
    rw [key f σ x σ' e1, key f' τ y τ' e2]
    exact ⟨⟨h1, h2⟩, trivial⟩
  unfold LinearL.init
  exact (lift _ _).bind fun r r' hr => (NetM.Same.solver _ _).bind fun _ _ _ => (NetM.Same.solver _ _).bind fun _ _ _ => .pure trivial

include hW hs hsol

theorem Block.init_kin {r : Rep} {b : ℕ} (ha : a.Over W g N) (ha' : a'.Over W g N) (hr : r.Over W g N) (hra : a.size W + a.gates W ≤ b)
    (hra' : a'.size W + a'.gates W ≤ b) (hrb : r.size W + r.gates W ≤ b) (hN : b * b ≤ N) (hrng : RngOK rng) :
    NetM.Pair W g gens gens (Block.init W gens solve rng a r) (Block.init W gens solve rng a' r) (Block.Kin W g N gens a a' r) := by
  have ht := NetM.Pair.of (gated_meets (gens := gens) hW hr) (gated_meets (gens := gens) hW hr) (NetM.Same.free (.rep _))
  unfold Block.init
  refine NetM.Pair.bind ht ?_
  rintro g1 _ ⟨rfl, h1, -⟩
  refine NetM.Pair.bind (NetM.Pair.of (LinearL.init_exact hW hs hsol ha h1.over (le_trans (Nat.mul_le_mul (h1.size ▸ hrb) (by omega)) hN))
    (LinearL.init_exact hW hs hsol ha' h1.over (le_trans (Nat.mul_le_mul (h1.size ▸ hrb) (by omega)) hN)) (LinearL.init_same_kin a a' g1 g1)) fun lin lin' hl => ?_
  refine NetM.Pair.bind ht ?_
  rintro g2 _ ⟨rfl, h2, -⟩
  refine NetM.Pair.bind ht ?_
  rintro g3 _ ⟨rfl, h3, -⟩
  have hN2 := le_trans (Nat.mul_le_mul hrb hrb) hN
  refine NetM.Pair.bind (NetM.Pair.of (bilinear_meets (gens := gens) hW hrng h2 h3 hN2) (bilinear_meets (gens := gens) hW hrng h2 h3 hN2)
    (NetM.Same.free (BilinearL.init_free _ _))) ?_
  rintro bil _ ⟨rfl, hb, -⟩
  exact .pure ⟨rfl, ⟨g1, h1.over, hl.2.1, hl.2.2⟩, rfl⟩

theorem Emlp.build_kin {mids : List Rep} {b : ℕ} (hov : ∀ r ∈ a :: o :: mids, r.Over W g N ∧ r.size W + r.gates W ≤ b)
    (hov' : ∀ r ∈ a' :: o' :: mids, r.Over W g N ∧ r.size W + r.gates W ≤ b) (hN : b * b ≤ N) (hrng : RngOK rng) :
    NetM.Pair W g gens gens (Emlp.build W gens solve rng a mids o) (Emlp.build W gens solve rng a' mids o') (Emlp.Kin W g N gens a a' mids o o') := by
  have hl := hov (mids.getLastD a) (by rcases mem_cons.1 (mem_getLastD mids a) with h | h; exacts [mem_cons.2 (.inl h), mem_cons_of_mem _ (mem_cons_of_mem _ h)])
  have hl' := hov' (mids.getLastD a') (by rcases mem_cons.1 (mem_getLastD mids a') with h | h; exacts [mem_cons.2 (.inl h), mem_cons_of_mem _ (mem_cons_of_mem _ h)])
  have ho := hov o (by simp)
  have ho' := hov' o' (by simp)
  have last : NetM.Pair W g gens gens (LinearL.init W gens solve (mids.getLastD a) o) (LinearL.init W gens solve (mids.getLastD a') o') fun L L' =>
      True ∧ L.Exact W g N gens (mids.getLastD a) o ∧ L'.Exact W g N gens (mids.getLastD a') o' :=
    NetM.Pair.of (LinearL.init_exact hW hs hsol hl.1 ho.1 (le_trans (Nat.mul_le_mul (by omega) (by omega)) hN))
      (LinearL.init_exact hW hs hsol hl'.1 ho'.1 (le_trans (Nat.mul_le_mul (by omega) (by omega)) hN)) (LinearL.init_same_kin _ _ _ _)
  unfold Emlp.build
  rw [getLastD_cons, getLastD_cons]
  cases mids with
  | nil =>
    simp only [zip_nil_right, mapM_nil, pure_bind]
    refine NetM.Pair.bind last fun l l' h => ?_
    exact .pure ⟨⟨rfl, rfl, rfl⟩, ⟨rfl, rfl, rfl⟩, fun _ => ⟨rfl, rfl⟩, fun r t h => absurd h (by simp), h.2.1, h.2.2⟩
  | cons r t =>
    have hr := hov r (by simp)
    simp only [zip_cons_cons, mapM_cons, bind_assoc, pure_bind]
    refine NetM.Pair.bind (Block.init_kin hW hs hsol (hov a (by simp)).1 (hov' a' (by simp)).1 hr.1 (hov a (by simp)).2 (hov' a' (by simp)).2 hr.2 hN hrng) fun B B' hB => ?_
    refine NetM.Pair.bind (NetM.Pair.mapM (P := fun p B B' => Block.Paired W g N gens gens p.1 p.2 B B') _ fun p hp => ?_) fun Bs Bs' hBs => ?_
    · have h := chain_mem (a := r) (o := o) (mids := t) (fun q hq => hov q (by simp only [mem_cons] at hq ⊢; tauto)) hp
      exact Block.init_pair hW hs hs hsol hsol h.1.1 h.2.1.1 h.1.2 h.2.1.2 hN hrng
    · refine NetM.Pair.bind last fun l l' h => ?_
      refine .pure ⟨⟨rfl, rfl, rfl⟩, ⟨rfl, rfl, rfl⟩, fun h => absurd h (by simp), fun r' t' e => ?_, h.2.1, h.2.2⟩
      obtain ⟨rfl, rfl⟩ := cons.inj e
      exact ⟨B, Bs, B', Bs', rfl, rfl, hB, hBs⟩

end

section
variable {W : World} {g : Gid} {N : ℕ} {custom : ∀ k g, AtomRep ℝ (W.d g) (W.usize k g)}
  {lie disc : ∀ g, List (Matrix (Fin (W.d g)) (Fin (W.d g)) ℝ)} {solve : ℕ → LinOp ℝ → Py (DMat ℝ)} {a a' o o' : Rep} {rng : Rng} {E E' : Emlp ℝ}

theorem Emlp.Kin.wrap (ok : GroupsOK W custom lie disc) {mids : List Rep} (h : Emlp.Kin W g N (gensOf W (stdAtoms W custom) lie disc) a a' mids o o' E E')
    (ha : a.Over W g N) (ha' : a'.Over W g N) (ho : o.Over W g N) (ho' : o'.Over W g N) (hm : ∀ r ∈ mids, r.Over W g N) {fi fo : List ℝ → List ℝ}
    (hfi : AE W g custom lie disc a' a fi) (hfo : AE W g custom lie disc o o' fo) {ps : List (BlockParams ℝ)} {w : DMat ℝ} {β : List ℝ} (hp : E.Shaped ps w β) :
    ∃ ps₁ w₁ β₁, E'.Shaped ps₁ w₁ β₁ ∧ ∀ (c : ℝ) (act : ℝ → ℝ) (x y : List ℝ), x.length = a'.size W → E.apply W c act ps w β (fi x) = .ok y →
      E'.apply W c act ps₁ w₁ β₁ x = .ok (fo y) := by
  obtain ⟨fl, hfl, hev⟩ := h.last.some hp.rows hp.cols hp.b
  cases hmd : mids with
  | nil =>
    subst hmd
    obtain ⟨e1, e2⟩ := h.none rfl
    have hl : E.last.Exact W g N _ a o := h.last
    have hl' : E'.last.Exact W g N _ a' o' := h.last'
    obtain ⟨w₁, β₁, k1, k2, k3, k4⟩ := (hl'.iff ok ha' ho').2 ((hfi.comp ((hl.iff ok ha ho).1 hfl)).comp hfo)
    refine ⟨[], w₁, β₁, ⟨by rw [e2]; exact .nil, by rw [k1, hl'.nout], by rw [k2, hl'.nin], by rw [k3, hl'.nout]⟩, fun c act x y hx hy => ?_⟩
    unfold Emlp.apply at hy ⊢
    rw [e1] at hy
    rw [e2]
    have hy' : E.last.apply w β (fi x) = .ok y := hy
    rw [hev _ (hfi.1.length hx)] at hy'
    obtain rfl := Except.ok.inj hy'
    exact k4 x hx
  | cons r t =>
    subst hmd
    obtain ⟨B, Bs, B', Bs', e1, e2, hB, hBs⟩ := h.some r t rfl
    have hmr : ((r :: t).getLastD a).Over W g N := by
      rw [getLastD_cons]
      exact hm _ (mem_getLastD t r)
    have hsame : (r :: t).getLastD a' = (r :: t).getLastD a := by rw [getLastD_cons, getLastD_cons]
    have hl' := h.last'
    rw [hsame] at hl'
    obtain ⟨w₁, β₁, k1, k2, k3, k4⟩ := (hl'.iff ok hmr ho').2 (((h.last.iff ok hmr ho).1 hfl).comp hfo)
    have hps := hp.blocks
    rw [e1] at hps
    obtain ⟨p, ps', hp1, hp2, rfl⟩ := forall₂_cons_left_iff.1 hps
    obtain ⟨g1, hg1, x1, x2⟩ := hB.lin
    obtain ⟨f1, hf1, hev1⟩ := x1.some hp1.rows hp1.cols hp1.b
    obtain ⟨w₂, β₂, m1, m2, m3, m4⟩ := (x2.iff ok ha' hg1).2 (hfi.comp ((x1.iff ok ha hg1).1 hf1))
    -- the other blocks: the weights that they use
    have sw : ∀ {l : List (Rep × Rep)} {Cs Cs' : List (Block ℝ)},
        All3 (fun p B B' => Block.Paired W g N (gensOf W (stdAtoms W custom) lie disc) (gensOf W (stdAtoms W custom) lie disc) p.1 p.2 B B') l Cs Cs' →
        All3 (fun p B B' => Block.Paired W g N (gensOf W (stdAtoms W custom) lie disc) (gensOf W (stdAtoms W custom) lie disc) p.1 p.2 B B') l Cs' Cs := by
      intro l Cs Cs' h
      induction h with
      | nil => exact .nil
      | cons hh _ ih =>
        obtain ⟨g1, u1, u2, u3⟩ := hh.lin
        exact .cons ⟨hh.rep', hh.rep, ⟨g1, u1, u3, u2⟩, hh.bil.symm, by rw [← hh.bil]; exact hh.com⟩ ih
    obtain ⟨b1, b2⟩ := blocks_restrict ok ok (fun _ h => h) (sw hBs) hp2
    refine ⟨⟨w₂, β₂, p.bw⟩ :: zipWith (fun B p => p.used B) Bs ps', w₁, β₁, ⟨?_, by rw [k1, hl'.nout], by rw [k2, hl'.nin], by rw [k3, hl'.nout]⟩, fun c act x y hx hy => ?_⟩
    · rw [e2]
      exact .cons ⟨by rw [m1, x2.nout], by rw [m2, x2.nin], by rw [m3, x2.nout], by rw [← hB.bil]; exact hp1.bw⟩ b1
    · unfold Emlp.apply at hy ⊢
      rw [e1] at hy
      rw [e2]
      simp only [zip_cons_cons, applyBlocks] at hy ⊢
      have hb : B'.apply W c act ⟨w₂, β₂, p.bw⟩ x = B.apply W c act p (fi x) := by
        unfold Block.apply
        show (B'.lin.apply w₂ β₂ x >>= _) = _
        rw [m4 x hx, hev1 _ (hfi.1.length hx), hB.bil, hB.rep]
      rw [hb, b2]
      cases hz : (B.apply W c act p (fi x) >>= applyBlocks W c act (Bs.zip ps')) with
      | error e => rw [hz] at hy; cases hy
      | ok z =>
        rw [hz] at hy
        have hy' : E.last.apply w β z = .ok y := hy
        have hzl : z.length = Rep.size W ((r :: t).getLastD a) := by
          have := hy'
          unfold LinearL.apply at this
          split_ifs at this with hq
          rw [hq.2.2.2, h.last.nin]
        rw [hev z hzl] at hy'
        obtain rfl := Except.ok.inj hy'
        exact k4 z hzl

variable {σ σ' τ τ' : NetSt ℝ} {ein eout ein' eout' : Expr} {rin rout rin' rout' : Rep} {ch : Ch} {ws : List ℕ} {bd L fuel : ℕ}

/-- What the constructors of the two networks have in common. -/
theorem Emlp.init_kin (hW : W.SingleOK g N) (hd : 2 ≤ W.d g) (hdN : W.d g ≤ N)
    (hsol : SolverOK W (gensOf W (stdAtoms W custom) lie disc) solve)
    (hσ : NetReach W g (gensOf W (stdAtoms W custom) lie disc) solve σ) (hτ : NetReach W g (gensOf W (stdAtoms W custom) lie disc) solve τ)
    (hsg : σ.sg = some g) (hsg' : τ.sg = some g) (hdr : σ.draws = τ.draws)
    (hrng : RngOK rng) (hin : RepArg W g N ein rin) (hout : RepArg W g N eout rout) (hin' : RepArg W g N ein' rin') (hout' : RepArg W g N eout' rout')
    (hch : ch.Widths W g N bd L ws)
    (hbi : ein.dim W g ≤ bd) (hbo : eout.dim W g ≤ bd) (hbi' : ein'.dim W g ≤ bd) (hbo' : eout'.dim W g ≤ bd) (hbf : bd < fuel) (hN : (2 * bd) * (2 * bd) ≤ N)
    (hE : Emlp.init W (gensOf W (stdAtoms W custom) lie disc) solve rng fuel rin rout g ch L σ = .ok (E, σ'))
    (hE' : Emlp.init W (gensOf W (stdAtoms W custom) lie disc) solve rng fuel rin' rout' g ch L τ = .ok (E', τ')) :
    ∃ a a' o o' mids, ArgOf W g N ein a ∧ ArgOf W g N eout o ∧ ArgOf W g N ein' a' ∧ ArgOf W g N eout' o' ∧ MidsOf W g N bd ch ws mids ∧
      Emlp.Kin W g N (gensOf W (stdAtoms W custom) lie disc) a a' mids o o' E E' := by
  have hbN : bd ≤ N := by nlinarith [Nat.zero_le bd]
  rw [Emlp.init_eq] at hE hE'
  obtain ⟨a, σ₁, u1, u2, u3, hE⟩ := NetM.call_step hsg hE
  obtain ⟨o, σ₂, v1, v2, v3, hE⟩ := NetM.call_step u2 hE
  obtain ⟨a', τ₁, u1', u2', u3', hE'⟩ := NetM.call_step hsg' hE'
  obtain ⟨o', τ₂, v1', v2', v3', hE'⟩ := NetM.call_step u2' hE'
  obtain ⟨s1, ha⟩ := hin.meets hW σ (hσ.ok hsol) a σ₁ u1
  obtain ⟨s2, ho⟩ := hout.meets hW σ₁ s1 o σ₂ v1
  obtain ⟨t1, ha'⟩ := hin'.meets hW τ (hτ.ok hsol) a' τ₁ u1'
  obtain ⟨t2, ho'⟩ := hout'.meets hW τ₁ t1 o' τ₂ v1'
  have key : NetM.Pair W g (gensOf W (stdAtoms W custom) lie disc) (gensOf W (stdAtoms W custom) lie disc)
      (parseCh W rng fuel g L ch >>= fun m => Emlp.build W (gensOf W (stdAtoms W custom) lie disc) solve rng a m o)
      (parseCh W rng fuel g L ch >>= fun m => Emlp.build W (gensOf W (stdAtoms W custom) lie disc) solve rng a' m o') fun E E' =>
        ∃ mids, MidsOf W g N bd ch ws mids ∧ Emlp.Kin W g N (gensOf W (stdAtoms W custom) lie disc) a a' mids o o' E E' := by
    refine NetM.Pair.bind (NetM.Pair.of (parseCh_meets hW hd hdN hrng hbN hbf hch) (parseCh_meets hW hd hdN hrng hbN hbf hch)
      (NetM.Same.free (parseCh_free _ _ _))) ?_
    rintro m _ ⟨rfl, hm, -⟩
    intro σ τ h1 h2 h3 h4 E σ' E' τ' e1 e2
    obtain ⟨i, j⟩ := Emlp.build_kin hW gensOf_sized hsol
      (init_hov hW hd hdN hrng hbN hbf hch (gensOf_sized (custom := custom) (lie := lie) (disc := disc)) hsol hin hout hbi hbo hN ha ho hm)
      (init_hov hW hd hdN hrng hbN hbf hch (gensOf_sized (custom := custom) (lie := lie) (disc := disc)) hsol hin' hout' hbi' hbo' hN ha' ho' hm) hN hrng
      σ τ h1 h2 h3 h4 E σ' E' τ' e1 e2
    exact ⟨i, m, hm, j⟩
  obtain ⟨-, mids, hm, kin⟩ := key σ₂ τ₂ s2 t2 (by rw [v2, v2']) (by rw [v3, u3, v3', u3', hdr]) E σ' E' τ' hE hE'
  exact ⟨a, a', o, o', mids, ha, ho, ha', ho', hm, kin⟩

/-- **C136.** Let two networks be built for the same group and hidden layers, with the same random draws, but for other input and output representations.  Whatever
a Linear layer into the inputs of the first, the first network, and a Linear layer from its outputs compute one after the other, the second network computes for
suitable parameters. -/
theorem C136_wrap (hW : W.SingleOK g N) (hd : 2 ≤ W.d g) (hdN : W.d g ≤ N) (ok : GroupsOK W custom lie disc)
    (hsol : SolverOK W (gensOf W (stdAtoms W custom) lie disc) solve)
    (hσ : NetReach W g (gensOf W (stdAtoms W custom) lie disc) solve σ) (hτ : NetReach W g (gensOf W (stdAtoms W custom) lie disc) solve τ)
    (hsg : σ.sg = some g) (hsg' : τ.sg = some g) (hdr : σ.draws = τ.draws)
    (hrng : RngOK rng) (hin : RepArg W g N ein rin) (hout : RepArg W g N eout rout) (hin' : RepArg W g N ein' rin') (hout' : RepArg W g N eout' rout')
    (hch : ch.Widths W g N bd L ws)
    (hbi : ein.dim W g ≤ bd) (hbo : eout.dim W g ≤ bd) (hbi' : ein'.dim W g ≤ bd) (hbo' : eout'.dim W g ≤ bd) (hbf : bd < fuel) (hN : (2 * bd) * (2 * bd) ≤ N)
    (hE : Emlp.init W (gensOf W (stdAtoms W custom) lie disc) solve rng fuel rin rout g ch L σ = .ok (E, σ'))
    (hE' : Emlp.init W (gensOf W (stdAtoms W custom) lie disc) solve rng fuel rin' rout' g ch L τ = .ok (E', τ'))
    {Li Lo : LinearL ℝ} (hLi : Li.Built W g (gensOf W (stdAtoms W custom) lie disc) solve E'.repIn E.repIn)
    (hLo : Lo.Built W g (gensOf W (stdAtoms W custom) lie disc) solve E.repOut E'.repOut) {fi fo : List ℝ → List ℝ}
    (hfi : Li.Computes W E'.repIn E.repIn fi) (hfo : Lo.Computes W E.repOut E'.repOut fo) :
    ∀ ps w β, E.Shaped ps w β → ∃ ps₁ w₁ β₁, E'.Shaped ps₁ w₁ β₁ ∧ ∀ (c : ℝ) (act : ℝ → ℝ) (x y : List ℝ), x.length = ein'.dim W g →
      E.apply W c act ps w β (fi x) = .ok y → E'.apply W c act ps₁ w₁ β₁ x = .ok (fo y) := by
  obtain ⟨a, a', o, o', mids, ha, ho, ha', ho', hm, kin⟩ := Emlp.init_kin hW hd hdN hsol hσ hτ hsg hsg' hdr hrng hin hout hin' hout' hch hbi hbo hbi' hbo' hbf hN hE hE'
  intro ps w β hp
  rw [kin.fields.1, kin.fields'.1] at hLi hfi
  rw [kin.fields.2.1, kin.fields'.2.1] at hLo hfo
  have hbb : bd * bd ≤ N := le_trans (Nat.mul_le_mul (by omega) (by omega)) hN
  have hfi' := (hLi.iff hW ok hsol ha'.1 ha.1 (by rw [ha.2.1, ha'.2.1]; exact le_trans (Nat.mul_le_mul hbi hbi') hbb)).1 hfi
  have hfo' := (hLo.iff hW ok hsol ho.1 ho'.1 (by rw [ho.2.1, ho'.2.1]; exact le_trans (Nat.mul_le_mul hbo' hbo) hbb)).1 hfo
  obtain ⟨ps₁, w₁, β₁, i, j⟩ := kin.wrap ok ha.1 ha'.1 ho.1 ho'.1 (fun r hr => (hm.2.1 r hr).1) hfi' hfo' hp
  exact ⟨ps₁, w₁, β₁, i, fun c act x y hx => j c act x y (by rw [hx, ha'.2.1])⟩

/-- **C136.** A network without hidden layers computes exactly the equivariant affine maps: those that the Linear layer from its inputs to its outputs computes. -/
theorem C136_plain (hW : W.SingleOK g N) (hd : 2 ≤ W.d g) (hdN : W.d g ≤ N) (ok : GroupsOK W custom lie disc)
    (hsol : SolverOK W (gensOf W (stdAtoms W custom) lie disc) solve)
    (hσ : NetReach W g (gensOf W (stdAtoms W custom) lie disc) solve σ)
    (hrng : RngOK rng) (hin : RepArg W g N ein rin) (hout : RepArg W g N eout rout) (hch : ch.Widths W g N bd L [])
    (hbi : ein.dim W g ≤ bd) (hbo : eout.dim W g ≤ bd) (hbf : bd < fuel) (hN : (2 * bd) * (2 * bd) ≤ N)
    (hE : Emlp.init W (gensOf W (stdAtoms W custom) lie disc) solve rng fuel rin rout g ch L σ = .ok (E, σ'))
    {K : LinearL ℝ} (hK : K.Built W g (gensOf W (stdAtoms W custom) lie disc) solve E.repIn E.repOut) (f : List ℝ → List ℝ) :
    (∃ ps w β, E.Shaped ps w β ∧ ∀ (c : ℝ) (act : ℝ → ℝ) (x : List ℝ), x.length = ein.dim W g → E.apply W c act ps w β x = .ok (f x)) ↔
      K.Computes W E.repIn E.repOut f := by
  obtain ⟨a, o, mids, ha, ho, hm, P⟩ := Emlp.init_pair hW hd hdN hsol hsol hσ hσ rfl rfl hrng hin hout hch hbi hbo hbf hN hE hE
  obtain rfl : mids = [] := map_eq_nil_iff.1 hm.1
  have hbb : bd * bd ≤ N := le_trans (Nat.mul_le_mul (by omega) (by omega)) hN
  rw [P.fields.1, P.fields.2.1] at hK ⊢
  have hl : E.last.Exact W g N _ a o := P.last
  have hb : E.blocks = [] := by
    have := P.blocks
    simp only [zip_nil_right] at this
    revert this
    generalize E.blocks = Bs
    intro this
    cases this
    rfl
  rw [hK.iff hW ok hsol ha.1 ho.1 (by rw [ha.2.1, ho.2.1]; exact le_trans (Nat.mul_le_mul hbo hbi) hbb), ← hl.iff ok ha.1 ho.1]
  have hap : ∀ (c : ℝ) (act : ℝ → ℝ) ps w β x, E.apply W c act ps w β x = E.last.apply w β x := fun c act ps w β x => by
    unfold Emlp.apply
    rw [hb]
    rfl
  constructor
  · rintro ⟨ps, w, β, hp, h⟩
    exact ⟨w, β, hp.rows.trans hl.nout, hp.cols.trans hl.nin, hp.b.trans hl.nout, fun x hx => by
      rw [← hap 0 id ps]
      exact h 0 id x (by rw [hx, ha.2.1])⟩
  · rintro ⟨w, β, h1, h2, h3, h4⟩
    exact ⟨[], w, β, ⟨by rw [hb]; exact .nil, by rw [h1, hl.nout], by rw [h2, hl.nin], by rw [h3, hl.nout]⟩, fun c act x hx => by
      rw [hap]
      exact h4 x (by rw [hx, ha.2.1])⟩

end

/-- rotations about an axis: two networks with one hidden layer of 6 channels, from a vector to a vector and from a vector to a scalar.  The second computes what
the first does between doubling the input and any Linear layer from vectors to scalars. -/
example : ∃ (solve : ℕ → LinOp ℝ → Py (DMat ℝ)) (rng : Rng) (E E' : Emlp ℝ) (σ' τ' : NetSt ℝ) (Lo : LinearL ℝ),
    Emlp.init exW (gensOf exW (stdAtoms exW fun k g => trivialAtom _ _) rotLies fun _ => []) solve rng 7 Rep.V Rep.V 0 (.one (.int 6)) 1 ⟨freshSt, some 0, 0⟩ = .ok (E, σ') ∧
    Emlp.init exW (gensOf exW (stdAtoms exW fun k g => trivialAtom _ _) rotLies fun _ => []) solve rng 7 Rep.V (.key .scalar) 0 (.one (.int 6)) 1 ⟨freshSt, some 0, 0⟩ = .ok (E', τ') ∧
    Lo.Built exW 0 (gensOf exW (stdAtoms exW fun k g => trivialAtom _ _) rotLies fun _ => []) solve E.repOut E'.repOut ∧
    (∀ ps w β, E.Shaped ps w β → ∀ (c : ℝ) (act : ℝ → ℝ) (x : List ℝ), x.length = 3 → ∃ y, E.apply exW c act ps w β x = .ok y) ∧
    ∀ fo, Lo.Computes exW E.repOut E'.repOut fo → ∀ ps w β, E.Shaped ps w β → ∃ ps₁ w₁ β₁, E'.Shaped ps₁ w₁ β₁ ∧ ∀ (c : ℝ) (act : ℝ → ℝ) (x y : List ℝ), x.length = 3 →
      E.apply exW c act ps w β (x.map ((2 : ℝ) * ·)) = .ok y → E'.apply exW c act ps₁ w₁ β₁ x = .ok (fo y) := by
  obtain ⟨sv, h1, h2⟩ := exists_solver ℝ
  obtain ⟨rng, hr⟩ := exists_rng
  have hW := exW_single 0 144 (by decide)
  have ha : RepArg exW 0 144 (.rep 0) Rep.V := ⟨⟨by decide, Or.inl rfl⟩, by decide, Or.inl rfl⟩
  have ho : RepArg exW 0 144 .scalar (.key .scalar) := ⟨trivial, by decide, Or.inl rfl⟩
  have hch : Ch.Widths exW 0 144 6 1 (.one (.int 6)) (replicate 1 6) := .one _ _ (.int 6 (by decide) (by decide))
  have hσ : NetReach exW 0 (gensOf exW (stdAtoms exW fun k g => trivialAtom _ _) rotLies fun _ => []) (fun _ => sv) ⟨freshSt, some 0, 0⟩ :=
    .start (some 0) 0 fun h e => by cases e; exact le_refl _
  obtain ⟨E, σ', hE, ht⟩ := C40_total hW (by decide) (by decide) rot_groups (h1 _ _) (fun _ _ C _ => h2 C) hσ hr ha ha hch (.one 6 (by decide))
    (by decide) (by decide) (fuel := 7) (by decide) (by decide)
  obtain ⟨E', τ', hE', -⟩ := C40_total hW (by decide) (by decide) rot_groups (h1 _ _) (fun _ _ C _ => h2 C) hσ hr ha ho hch (.one 6 (by decide))
    (by decide) (by decide) (fuel := 7) (by decide) (by decide)
  obtain ⟨a, a', o, o', mids, k1, k2, k3, k4, -, kin⟩ := Emlp.init_kin hW (by decide) (by decide) (h1 _ _) hσ hσ rfl rfl rfl hr ha ha ha ho hch
    (by decide) (by decide) (by decide) (by decide) (by decide) (by decide) hE hE'
  have build : ∀ {a o : Rep}, a.Over exW 0 144 → o.Over exW 0 144 → o.size exW * a.size exW ≤ 144 → ∃ L : LinearL ℝ, L.Built exW 0 (gensOf exW (stdAtoms exW fun k g => trivialAtom _ _) rotLies fun _ => []) (fun _ => sv) a o := fun ha ho hn => by
    obtain ⟨L, τ, e⟩ := (C30_linear hW rot_groups (h1 _ _) hσ ha ho hn).2 (fun _ _ C _ => h2 C)
    exact ⟨L, _, _, hσ, e⟩
  obtain ⟨Lo, b1⟩ := build k2.1 k4.1 (by rw [k2.2.1, k4.2.1]; decide)
  obtain ⟨Li, b2⟩ := build k3.1 k1.1 (by rw [k1.2.1, k3.2.1]; decide)
  have hfi : AE exW 0 (fun k g => trivialAtom _ _) rotLies (fun _ => []) a' a fun x => x.map ((2 : ℝ) * ·) := by
    have i : AE exW 0 (fun k g => trivialAtom _ _) rotLies (fun _ => []) a a fun x => x.map ((2 : ℝ) * ·) := AE.smul 2 AE.id
    have sz : a'.size exW = a.size exW := by rw [k1.2.1, k3.2.1]
    refine ⟨by rw [sz]; exact i.1, fun h hh x hx => ?_⟩
    rw [k3.2.2 ℝ _ (elem_dual rot_groups hh), ← k1.2.2 ℝ _ (elem_dual rot_groups hh)]
    exact i.2 h hh x (by rw [hx, sz])
  have hLi := (b2.iff hW rot_groups (h1 _ _) k3.1 k1.1 (by rw [k1.2.1, k3.2.1]; decide)).2 hfi
  rw [← kin.fields.2.1, ← kin.fields'.2.1] at b1
  rw [← kin.fields.1, ← kin.fields'.1] at b2 hLi
  exact ⟨_, rng, E, E', σ', τ', Lo, hE, hE', b1, ht, fun fo hfo => C136_wrap hW (by decide) (by decide) rot_groups (h1 _ _) hσ hσ rfl rfl rfl hr ha ha ha ho hch
    (by decide) (by decide) (by decide) (by decide) (by decide) (by decide) hE hE' b2 b1 hLi hfo⟩

/-- a network with no hidden layers, `num_layers=0`, from vectors to vectors: for some parameters it is the identity -/
example : ∃ (solve : ℕ → LinOp ℝ → Py (DMat ℝ)) (rng : Rng) (E : Emlp ℝ) (σ' : NetSt ℝ),
    Emlp.init exW (gensOf exW (stdAtoms exW fun k g => trivialAtom _ _) rotLies fun _ => []) solve rng 7 Rep.V Rep.V 0 (.one (.int 6)) 0 ⟨freshSt, none, 0⟩ = .ok (E, σ') ∧
    ∃ ps w β, E.Shaped ps w β ∧ ∀ (c : ℝ) (act : ℝ → ℝ) (x : List ℝ), x.length = 3 → E.apply exW c act ps w β x = .ok x := by
  obtain ⟨sv, h1, h2⟩ := exists_solver ℝ
  obtain ⟨rng, hr⟩ := exists_rng
  have hW := exW_single 0 144 (by decide)
  have ha : RepArg exW 0 144 (.rep 0) Rep.V := ⟨⟨by decide, Or.inl rfl⟩, by decide, Or.inl rfl⟩
  have hch : Ch.Widths exW 0 144 6 0 (.one (.int 6)) [] := .one _ _ (.int 6 (by decide) (by decide))
  have hσ : NetReach exW 0 (gensOf exW (stdAtoms exW fun k g => trivialAtom _ _) rotLies fun _ => []) (fun _ => sv) ⟨freshSt, none, 0⟩ := .start none 0 fun h e => by simp at e
  obtain ⟨E, σ', hE, ht⟩ := C40_total hW (by decide) (by decide) rot_groups (h1 _ _) (fun _ _ C _ => h2 C) hσ hr ha ha hch (.one 6 (by decide))
    (by decide) (by decide) (fuel := 7) (by decide) (by decide)
  obtain ⟨a, o, mids, k1, k2, -, P⟩ := Emlp.init_pair hW (by decide) (by decide) (h1 _ _) (h1 _ _) hσ hσ rfl rfl hr ha ha hch
    (by decide) (by decide) (by decide) (by decide) hE hE
  have hn : o.size exW * a.size exW ≤ 144 := by rw [k1.2.1, k2.2.1]; decide
  obtain ⟨K, τ, e⟩ := (C30_linear hW rot_groups (h1 _ _) hσ k1.1 k2.1 hn).2 (fun _ _ C _ => h2 C)
  have b : K.Built exW 0 (gensOf exW (stdAtoms exW fun k g => trivialAtom _ _) rotLies fun _ => []) (fun _ => sv) a o := ⟨_, _, hσ, e⟩
  have hid : AE exW 0 (fun k g => trivialAtom _ _) rotLies (fun _ => []) a o fun x => x := by
    have i : AE exW 0 (fun k g => trivialAtom _ _) rotLies (fun _ => []) o o fun x => x := AE.id
    have sz : a.size exW = o.size exW := by rw [k1.2.1, k2.2.1]
    refine ⟨by rw [sz]; exact i.1, fun h hh x hx => ?_⟩
    rw [k1.2.2 ℝ _ (elem_dual rot_groups hh), ← k2.2.2 ℝ _ (elem_dual rot_groups hh)]
  have hc := (b.iff hW rot_groups (h1 _ _) k1.1 k2.1 hn).2 hid
  rw [← P.fields.1, ← P.fields.2.1] at b hc
  exact ⟨_, rng, E, σ', hE, (C136_plain hW (by decide) (by decide) rot_groups (h1 _ _) hσ hr ha ha hch (by decide) (by decide) (by decide) (by decide) hE b _).2 hc⟩

end Verif
