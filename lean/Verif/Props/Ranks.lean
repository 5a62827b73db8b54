import Verif.Lemmas.SignFam
import Verif.Props.Components
import Verif.Props.Universal
import Verif.Props.Commutants

/-!
# `SO(n)` and `O(n)` cannot be told apart by tensors of rank below `n` (C118)

What distinguishes the equivariant maps of `SO(n)` from those of `O(n)` is the Levi-Civita tensor, which has `n` indices.  Between
representations whose ranks add up to less than `n`, every layer built for `SO(n)` commutes with reflections too.
-/
namespace Verif
open List Matrix

/-- What a linear layer computes: `M x + β`. -/
theorem LinearL.Good.affine {W : World} {gens : Gid → GenSet ℝ} {a b : Rep} {L : LinearL ℝ} (h : L.Good W gens a b) {w : DMat ℝ} {β : List ℝ}
    (hw : w.rows = b.size W) (hw' : w.cols = a.size W) (hβ : β.length = b.size W) :
    ∃ (M : DMat ℝ) (v : List ℝ), M.rows = b.size W ∧ M.cols = a.size W ∧ v.length = b.size W ∧
      ∀ z : List ℝ, z.length = a.size W → L.apply w β z = .ok (zipWith (· + ·) (M.mulVec z) v) := by
  refine ⟨DMat.unflat w.rows w.cols (L.Pw.sem.mulVec w.flat), L.Pb.sem.mulVec β, hw, hw', by rw [DMat.length_mulVec, h.b.1.1], fun z hz => ?_⟩
  unfold LinearL.apply
  rw [if_pos ⟨by rw [hw, h.nout], by rw [hw', h.nin], by rw [hβ, h.nout], by rw [hz, h.nin]⟩]

theorem diag_mulVec {N : ℕ} {A : DMat ℝ} (hA : A.IsSq N) {α : ℕ → ℝ} (h : ∀ i < N, ∀ j < N, A.e i j = if i = j then α i else 0) {x : List ℝ}
    {i : ℕ} (hi : i < N) : (A.mulVec x).getD i 0 = α i * x.getD i 0 := by
  rw [DMat.getD_mulVec (by rw [hA.1]; exact hi), hA.2, Finset.sum_eq_single i]
  · rw [h i hi i hi, if_pos rfl]
  · intro j hj hne
    rw [h i hi j (Finset.mem_range.1 hj), if_neg (Ne.symm hne), zero_mul]
  · intro hn; exact absurd (Finset.mem_range.2 hi) hn

theorem getD_add {u v : List ℝ} (h : u.length = v.length) (i : ℕ) : (zipWith (· + ·) u v).getD i 0 = u.getD i 0 + v.getD i 0 := by
  by_cases hi : i < u.length
  · rw [getD_eq_getElem _ _ (by simp [← h, hi]), getD_eq_getElem _ _ hi, getD_eq_getElem _ _ (h ▸ hi)]; simp
  · rw [getD_eq_default _ _ (by simp [← h]; omega), getD_eq_default _ _ (by omega), getD_eq_default _ _ (by omega), add_zero]

/-- When an affine map commutes with diagonal matrices. -/
theorem affine_diag_commutes {n m : ℕ} {f : List ℝ → Py (List ℝ)} {M : DMat ℝ} {v : List ℝ} (h1 : M.rows = m) (h2 : M.cols = n) (h3 : v.length = m)
    (hf : ∀ z : List ℝ, z.length = n → f z = .ok (zipWith (· + ·) (M.mulVec z) v)) {A B : DMat ℝ} (hA : A.IsSq n) (hB : B.IsSq m) {α γ : ℕ → ℝ}
    (eA : ∀ i < n, ∀ j < n, A.e i j = if i = j then α i else 0) (eB : ∀ i < m, ∀ j < m, B.e i j = if i = j then γ i else 0) :
    Commutes n m f A B ↔ (∀ i < m, γ i * v.getD i 0 = v.getD i 0) ∧ ∀ i < m, ∀ j < n, M.e i j * α j = γ i * M.e i j := by
  have ent : ∀ (z : List ℝ) (i : ℕ), i < m → (zipWith (· + ·) (M.mulVec z) v).getD i 0 = (∑ j ∈ Finset.range n, M.e i j * z.getD j 0) + v.getD i 0 := by
    intro z i hi
    rw [getD_add (by rw [DMat.length_mulVec, h1, h3]), DMat.getD_mulVec (by rw [h1]; exact hi), h2]
  have sum : ∀ (z : List ℝ) (i : ℕ), ∑ j ∈ Finset.range n, M.e i j * (A.mulVec z).getD j 0 = ∑ j ∈ Finset.range n, M.e i j * (α j * z.getD j 0) :=
    fun z i => Finset.sum_congr rfl fun j hj => by rw [diag_mulVec hA eA (Finset.mem_range.1 hj)]
  constructor
  · intro hc
    have key : ∀ x : List ℝ, x.length = n → ∀ i < m, (∑ j ∈ Finset.range n, M.e i j * (α j * x.getD j 0)) + v.getD i 0 =
        γ i * ((∑ j ∈ Finset.range n, M.e i j * x.getD j 0) + v.getD i 0) := by
      intro x hx i hi
      obtain ⟨y, e1, -, e2⟩ := hc x hx
      rw [hf x hx] at e1
      rw [hf _ (by rw [DMat.length_mulVec, hA.1])] at e2
      have e3 := congrArg (fun l : List ℝ => l.getD i 0) (Except.ok.inj e2)
      beta_reduce at e3
      rw [← Except.ok.inj e1, ent _ i hi, sum, diag_mulVec hB eB hi, ent _ i hi] at e3
      exact e3
    have h0 : ∀ i < m, γ i * v.getD i 0 = v.getD i 0 := by
      intro i hi
      have := key (replicate n 0) (by simp) i hi
      have z : ∀ j, (replicate n (0 : ℝ)).getD j 0 = 0 := fun j => by
        by_cases hj : j < n
        · rw [getD_eq_getElem _ _ (by simpa using hj)]; simp
        · rw [getD_eq_default _ _ (by simpa using hj)]
      simp only [z, mul_zero, Finset.sum_const_zero, zero_add] at this
      exact this.symm
    refine ⟨h0, fun i hi j hj => ?_⟩
    have := key ((range n).map fun k => if k = j then 1 else 0) (by simp) i hi
    have z : ∀ k < n, ((range n).map fun k => if k = j then (1 : ℝ) else 0).getD k 0 = if k = j then 1 else 0 := fun k hk => by
      rw [getD_eq_getElem _ _ (by simpa using hk)]; simp
    have pickj : ∀ F : ℕ → ℝ, ∑ k ∈ Finset.range n, F k * ((range n).map fun k => if k = j then (1 : ℝ) else 0).getD k 0 = F j := by
      intro F
      rw [Finset.sum_congr rfl fun k hk => by rw [z k (Finset.mem_range.1 hk)]]
      simp [hj]
    simp only [← mul_assoc] at this
    rw [pickj fun k => M.e i k * α k, pickj (M.e i), mul_add, h0 i hi] at this
    linarith
  · rintro ⟨c1, c2⟩ x hx
    refine ⟨_, hf x hx, by simp [h1, h3], ?_⟩
    rw [hf _ (by rw [DMat.length_mulVec, hA.1])]
    congr 1
    refine DMat.vec_ext (by simp [h1, h3, hB.1]) fun i hi => ?_
    have hi' : i < m := by simpa [h1, h3] using hi
    rw [ent _ i hi', sum, diag_mulVec hB eB hi', ent _ i hi', mul_add, c1 i hi', Finset.mul_sum]
    congr 1
    refine Finset.sum_congr rfl fun j hj => ?_
    rw [← mul_assoc, c2 i hi' j (Finset.mem_range.1 hj), mul_assoc]

theorem exists_common_zero {n p q : ℕ} {c d : Fin n → ℕ} (hc : ∑ j, c j ≤ p) (hd : ∑ j, d j ≤ q) (h : p + q < n) : ∃ b, c b = 0 ∧ d b = 0 := by
  by_contra hne
  push Not at hne
  have : ∑ _j : Fin n, 1 ≤ ∑ j, (c j + d j) := Finset.sum_le_sum fun j _ => by
    by_cases e : c j = 0
    · have := hne j e; omega
    · omega
  rw [Finset.sum_add_distrib, Finset.sum_const, Finset.card_univ, Fintype.card_fin, smul_eq_mul, mul_one] at this
  omega

/-- An affine map between tensors of small rank that commutes with all diagonal matrices of signs of determinant one commutes with all
diagonal matrices of signs. -/
theorem affine_signs {k n m p q : ℕ} {f : List ℝ → Py (List ℝ)} {M : DMat ℝ} {v : List ℝ} (h1 : M.rows = m) (h2 : M.cols = n) (h3 : v.length = m)
    (hf : ∀ z : List ℝ, z.length = n → f z = .ok (zipWith (· + ·) (M.mulVec z) v)) {A B : (Fin k → ℤˣ) → DMat ℝ} (hA : DMat.SFam k n p A)
    (hB : DMat.SFam k m q B) (hpq : p + q < k) (hc : ∀ ε, ∏ j, ε j = 1 → Commutes n m f (A ε) (B ε)) (ε : Fin k → ℤˣ) :
    Commutes n m f (A ε) (B ε) := by
  obtain ⟨c, c1, c2⟩ := hA.ent
  obtain ⟨d, d1, d2⟩ := hB.ent
  have key := fun ε => affine_diag_commutes h1 h2 h3 hf (hA.sq ε) (hB.sq ε) (fun i hi j hj => c2 i hi j hj ε) (fun i hi j hj => d2 i hi j hj ε)
  rw [key]
  refine ⟨fun i hi => ?_, fun i hi j hj => ?_⟩
  · obtain ⟨b, hb, -⟩ := exists_common_zero (d1 i) (show ∑ _j : Fin k, 0 ≤ 0 by simp) (by omega)
    have := ((key _).1 (hc _ (prod_correct b ε))).1 i hi
    rwa [signMon_correct hb] at this
  · obtain ⟨b, hb, hb'⟩ := exists_common_zero (c1 j) (d1 i) hpq
    have := ((key _).1 (hc _ (prod_correct b ε))).2 i hi j hj
    rwa [signMon_correct hb, signMon_correct hb'] at this

theorem vec_signs {k n p : ℕ} {v : List ℝ} (hv : v.length = n) {A : (Fin k → ℤˣ) → DMat ℝ} (hA : DMat.SFam k n p A) (hp : p < k)
    (h : ∀ ε, ∏ j, ε j = 1 → (A ε).mulVec v = v) (ε : Fin k → ℤˣ) : (A ε).mulVec v = v := by
  obtain ⟨c, c1, c2⟩ := hA.ent
  refine DMat.vec_ext (by rw [DMat.length_mulVec, (hA.sq ε).1, hv]) fun i hi => ?_
  have hi' : i < n := by simpa [(hA.sq ε).1] using hi
  obtain ⟨b, hb, -⟩ := exists_common_zero (c1 i) (show ∑ _j : Fin k, 0 ≤ 0 by simp) (by omega)
  have := congrArg (fun l : List ℝ => l.getD i 0) (h _ (prod_correct b ε))
  beta_reduce at this
  rw [diag_mulVec (hA.sq _) (fun i hi j hj => c2 i hi j hj _) hi', signMon_correct hb] at this
  rw [diag_mulVec (hA.sq _) (fun i hi j hj => c2 i hi j hj _) hi', this]

theorem signMat_orth {n : ℕ} (ε : Fin n → ℤˣ) : (signMat ε)ᵀ * signMat ε = 1 := by
  rw [show (signMat ε)ᵀ = signMat ε from diagonal_transpose _, signMat_mul]

theorem signMat_det {n : ℕ} {ε : Fin n → ℤˣ} (h : ∏ j, ε j = 1) : (signMat ε).det = 1 := by
  rw [signMat, det_diagonal]
  have := congrArg (fun u : ℤˣ => ((u : ℤ) : ℝ)) h
  simpa using this

/-- A reflection made of signs. -/
theorem exists_signMat {n : ℕ} (hn : 0 < n) : ∃ ε : Fin n → ℤˣ, (signMat ε).det = -1 := by
  refine ⟨fun i => if i = ⟨0, hn⟩ then -1 else 1, ?_⟩
  rw [signMat, det_diagonal, Finset.prod_eq_single ⟨0, hn⟩]
  · simp
  · intro j _ hj; simp [hj]
  · simp

theorem orth_det {n : ℕ} {h : Matrix (Fin n) (Fin n) ℝ} (ho : hᵀ * h = 1) : h.det = 1 ∨ h.det = -1 := by
  have := congrArg det ho
  rw [det_mul, det_transpose, det_one] at this
  exact mul_self_eq_one_iff.1 this

section
variable {W : World} {g : Gid} {N b : ℕ} {custom : ∀ k g, AtomRep ℝ (W.d g) (W.usize k g)} {rk : ℕ → ℕ}
  {lie disc : ∀ g, List (Matrix (Fin (W.d g)) (Fin (W.d g)) ℝ)} {t u : Arr3 ℝ}
  {solve : ℕ → LinOp ℝ → Py (DMat ℝ)} {rng : Rng} {σ σ' : NetSt ℝ} {a o : Rep} {mids : List Rep} {E : Emlp ℝ}

/-- The flags of `O(n)` fit `SO(n)`. -/
theorem GroupsOK.of_update {ds : List (Matrix (Fin (W.d g)) (Fin (W.d g)) ℝ)} (ok : GroupsOK W custom lie (Function.update disc g ds))
    (hd : disc g = []) : GroupsOK W custom lie disc := by
  have sub : ∀ g', ∀ h ∈ disc g', h ∈ Function.update disc g ds g' := by
    intro g' h hh
    by_cases e : g' = g
    · subst e; rw [hd] at hh; simp at hh
    · rwa [Function.update_of_ne e]
  have mono : ∀ g' h, Generated (lie g') (disc g') h → Generated (lie g') (Function.update disc g ds g') h :=
    fun g' h hh => hh.mono (fun _ h => h) (sub g')
  exact ⟨fun g' h hh => ok.unit g' h (sub g' h hh), fun g' ho => ⟨(ok.orth g' ho).1, fun h hh => (ok.orth g' ho).2 h (sub g' h hh)⟩,
    fun k g' => ⟨fun x y hx hy => (ok.hom k g').mul x y (mono g' x hx) (mono g' y hy), (ok.hom k g').exp⟩,
    fun k g' ho M hM => ok.user k g' ho M (mono g' M hM), fun g' hp => ⟨(ok.perm g' hp).1, fun h hh => (ok.perm g' hp).2 h (sub g' h hh)⟩⟩

theorem elem_comp {lie disc : ∀ g, List (Matrix (Fin (W.d g)) (Fin (W.d g)) ℝ)} (ok : GroupsOK W custom lie disc)
    {x y : Matrix (Fin (W.d g)) (Fin (W.d g)) ℝ} (hx : Generated (lie g) (disc g) x) (hy : Generated (lie g) (disc g) y) {r : Rep} (hr : r.WF W) :
    r.mat (Interp.elem W custom g (x * y)) = (r.mat (Interp.elem W custom g x)).mul (r.mat (Interp.elem W custom g y)) := by
  refine Rep.mat_mul (at_sized _) (at_sized _) ?_ hr
  have := at_mul (stdAtoms_hom ok.hom) (generated_oneAt hx) (generated_oneAt hy)
  have e : (fun g' => oneAt W g x g' * oneAt W g y g') = oneAt W g (x * y) := by
    funext g'
    by_cases e : g' = g
    · subst e; simp only [oneAt_same]
    · simp only [oneAt_ne e, mul_one]
  rw [e] at this
  exact this

theorem Commutes.trans_elem {n m : ℕ} {f : List ℝ → Py (List ℝ)} {A A' B B' : DMat ℝ} (hA : A.IsSq n) (hA' : A'.IsSq n) (hB : B.IsSq m) (hB' : B'.IsSq m)
    (h : Commutes n m f A B) (h' : Commutes n m f A' B') : Commutes n m f (A.mul A') (B.mul B') := by
  intro x hx
  obtain ⟨y, e1, e2, e3⟩ := h' x hx
  obtain ⟨z, f1, f2, f3⟩ := h (A'.mulVec x) (by rw [DMat.length_mulVec, hA'.1])
  rw [e3] at f1
  refine ⟨y, e1, e2, ?_⟩
  rw [DMat.mulVec_mul _ _ _ (by rw [hA.2, hA'.1]), DMat.mulVec_mul _ _ _ (by rw [hB.2, hB'.1]), f3, Except.ok.inj f1]

namespace RotationsIn
variable (H : RotationsIn W g custom rk lie disc t u)
include H

theorem pos : 0 < W.d g := by
  by_contra h0
  have hu := H.o
  unfold oDisc Arr3.set at hu
  rw [if_neg (by simp only [not_and]; omega)] at hu
  cases hu

theorem ok' : GroupsOK W custom lie disc := H.ok.of_update H.discs

theorem gen_so {h : Matrix (Fin (W.d g)) (Fin (W.d g)) ℝ} (ho : hᵀ * h = 1) (hd : h.det = 1) : Generated (lie g) (disc g) h := by
  obtain ⟨t', h1, h2⟩ := C115_so (W.d g)
  rw [H.so] at h1
  cases h1
  rw [H.lies, H.discs]
  exact (h2 h).2 ⟨ho, hd⟩

theorem gen_o {h : Matrix (Fin (W.d g)) (Fin (W.d g)) ℝ} (ho : hᵀ * h = 1) : Generated (lie g) (Function.update disc g (u.mats (W.d g)) g) h := by
  obtain ⟨t', u', h1, h2, h3⟩ := C115_o (W.d g) H.pos
  rw [H.so] at h1
  rw [H.o] at h2
  cases h1
  cases h2
  rw [Function.update_self, H.lies]
  exact (h3 h).2 ho

/-- Every orthogonal matrix is a rotation, or a rotation times a diagonal matrix of signs. -/
theorem split {P : Matrix (Fin (W.d g)) (Fin (W.d g)) ℝ → Prop} (h1 : ∀ h, hᵀ * h = 1 → h.det = 1 → P h) (h2 : ∀ ε, P (signMat ε))
    (h3 : ∀ x y, xᵀ * x = 1 → yᵀ * y = 1 → P x → P y → P (x * y)) {h : Matrix (Fin (W.d g)) (Fin (W.d g)) ℝ} (ho : hᵀ * h = 1) : P h := by
  rcases orth_det ho with hd | hd
  · exact h1 h ho hd
  · obtain ⟨ε, hε⟩ := exists_signMat H.pos
    have e : h = h * signMat ε * signMat ε := by rw [mul_assoc, signMat_mul, mul_one]
    have ho' : (h * signMat ε)ᵀ * (h * signMat ε) = 1 := by
      rw [transpose_mul, ← mul_assoc, mul_assoc _ hᵀ, ho, mul_one, signMat_orth]
    rw [e]
    exact h3 _ _ ho' (signMat_orth ε) (h1 _ ho' (by rw [det_mul, hd, hε]; norm_num)) (h2 ε)

theorem sfam {r : Rep} (hr : r.WF W) : DMat.SFam (W.d g) (r.size W) (r.rank rk) fun ε => r.mat (Interp.elem W custom g (signMat ε)) :=
  Rep.mat_sfam (elem_sfam H.rk0 H.rank) hr

theorem linear {k : ℕ} {L : LinearL ℝ} (hL : L.Good W (gensOf W (stdAtoms W custom) lie disc) a o) (ha : a.WF W) (ho : o.WF W)
    (hk : DMat.SFam (W.d g) (o.size W) k fun ε => o.mat (Interp.elem W custom g (signMat ε))) (hrk : a.rank rk + k < W.d g)
    {w : DMat ℝ} {β : List ℝ} (h1 : w.rows = o.size W) (h2 : w.cols = a.size W) (h3 : β.length = o.size W)
    {h : Matrix (Fin (W.d g)) (Fin (W.d g)) ℝ} (hh : hᵀ * h = 1) :
    Commutes (a.size W) (o.size W) (L.apply w β) (a.mat (Interp.elem W custom g h)) (o.mat (Interp.elem W custom g h)) := by
  have so : ∀ h, hᵀ * h = 1 → h.det = 1 →
      Commutes (a.size W) (o.size W) (L.apply w β) (a.mat (Interp.elem W custom g h)) (o.mat (Interp.elem W custom g h)) := fun h e1 e2 =>
    hL.commutes ho (elem_dual H.ok' (H.gen_so e1 e2)) ha (elem_fixes H.ok' (H.gen_so e1 e2)) h1 h2 h3
  obtain ⟨M, v, m1, m2, m3, m4⟩ := hL.affine h1 h2 h3
  refine H.split so (affine_signs m1 m2 m3 m4 (H.sfam ha) hk hrk fun ε e => so _ (signMat_orth ε) (signMat_det e)) (fun x y hx hy cx cy => ?_) hh
  rw [elem_comp H.ok (H.gen_o hx) (H.gen_o hy) ha, elem_comp H.ok (H.gen_o hx) (H.gen_o hy) ho]
  exact cx.trans_elem (Rep.mat_sq (at_sized _) ha) (Rep.mat_sq (at_sized _) ha) (Rep.mat_sq (at_sized _) ho) (Rep.mat_sq (at_sized _) ho) cy

theorem blocks (hW : W.SingleOK g N) (c : ℝ) (act : ℝ → ℝ) {h : Matrix (Fin (W.d g)) (Fin (W.d g)) ℝ} (hh : hᵀ * h = 1) (mids : List Rep) :
    ∀ (a : Rep) (Bs : List (Block ℝ)) (ps : List (BlockParams ℝ)), a.Over W g N → (∀ r ∈ mids, r.Over W g N ∧ r.CanonicalSum W) →
      IsChain (fun r s : Rep => r.rank rk + s.rank rk < W.d g) (a :: mids) →
      Forall₂ (fun p B => Block.Good W g N (gensOf W (stdAtoms W custom) lie disc) p.1 p.2 B) ((a :: mids).zip mids) Bs →
      Forall₂ BlockParams.Shaped Bs ps →
      Commutes (a.size W) ((mids.getLastD a).size W) (applyBlocks W c act (Bs.zip ps)) (a.mat (Interp.elem W custom g h))
        ((mids.getLastD a).mat (Interp.elem W custom g h)) := by
  induction mids with
  | nil =>
    intro a Bs ps ha _ _ h1 h2
    cases h1
    intro x hx
    exact ⟨x, rfl, hx, rfl⟩
  | cons r t ih =>
    intro a Bs ps ha hm hch h1 h2
    rw [zip_cons_cons] at h1
    obtain ⟨B, Bs', hB, hBs, rfl⟩ := forall₂_cons_left_iff.1 h1
    obtain ⟨p, ps', hp, hps, rfl⟩ := forall₂_cons_left_iff.1 h2
    have hr := hm r (by simp)
    rw [isChain_cons_cons] at hch
    have c1 := hB.commutes_of hW hr.1 hr.2 c act hp (elem_dual H.ok (H.gen_o hh)) (fun g1 h1 hl => ?_) (elem_perm H.ok (H.gen_o hh))
    · have c2 := ih r Bs' ps' hr.1 (fun q hq => hm q (by simp [hq])) hch.2 hBs hps
      rw [getLastD_cons]
      exact c1.comp c2
    · refine H.linear hl ha.wf h1.over.wf (k := r.rank rk) ?_ hch.1 (by rw [hp.rows, hl.nout]) (by rw [hp.cols, hl.nin]) (by rw [hp.b, hl.nout]) hh
      have e : (fun ε => g1.mat (Interp.elem W custom g (signMat ε))) = fun ε => DMat.bdiag2 (r.mat (Interp.elem W custom g (signMat ε))) (DMat.one (r.gates W)) :=
        funext fun ε => h1.mat ℝ _ (at_sized _)
      rw [e, h1.size]
      exact (H.sfam hr.1.wf).bdiag2 ((DMat.SFam.one _).mono (Nat.zero_le _))

end RotationsIn

/-- **C118.** A vector of a representation of rank less than `n` that is invariant under `SO(n)` is fixed by every orthogonal matrix. -/
theorem C118_invariants (H : RotationsIn W g custom rk lie disc t u) {r : Rep} (hr : r.WF W) (hrk : r.rank rk < W.d g) {v : List ℝ}
    (hv : v.length = r.size W) (hfix : r.Fixed W (gensOf W (stdAtoms W custom) lie disc) v)
    {h : Matrix (Fin (W.d g)) (Fin (W.d g)) ℝ} (hh : hᵀ * h = 1) : (r.mat (Interp.elem W custom g h)).mulVec v = v := by
  have so : ∀ h, hᵀ * h = 1 → h.det = 1 → (r.mat (Interp.elem W custom g h)).mulVec v = v := fun h e1 e2 =>
    elem_fixes H.ok' (H.gen_so e1 e2) r hr v hv hfix
  have hsq : ∀ x y, (r.mat (Interp.elem W custom g x)).cols = (r.mat (Interp.elem W custom g y)).rows := fun x y =>
    (Rep.mat_sq (I := Interp.elem W custom g x) (at_sized _) hr).2.trans (Rep.mat_sq (I := Interp.elem W custom g y) (at_sized _) hr).1.symm
  refine H.split (P := fun h => (r.mat (Interp.elem W custom g h)).mulVec v = v) so
    (vec_signs hv (H.sfam hr) hrk fun ε e => so _ (signMat_orth ε) (signMat_det e)) (fun x y hx hy cx cy => ?_) hh
  beta_reduce
  rw [elem_comp H.ok (H.gen_o hx) (H.gen_o hy) hr, DMat.mulVec_mul _ _ _ (hsq x y), cy, cx]

/-- **C118.** So in a representation of rank less than `n` the groups `SO(n)` and `O(n)` have the same invariant vectors. -/
theorem C118_same_invariants (H : RotationsIn W g custom rk lie disc t u) {r : Rep} (hr : r.WF W) (hrk : r.rank rk < W.d g) {v : List ℝ}
    (hv : v.length = r.size W) : r.Fixed W (gensOf W (stdAtoms W custom) lie disc) v ↔
      r.Fixed W (gensOf W (stdAtoms W custom) lie (Function.update disc g (u.mats (W.d g)))) v := by
  constructor
  · intro hfix g'
    refine ⟨fun I hI => ?_, (hfix g').2⟩
    obtain ⟨x, hx, rfl⟩ := mem_map.1 hI
    by_cases e : g' = g
    · subst e
      have := C118_invariants H hr hrk hv hfix (h := x) (by
        rw [Function.update_self, oDisc_mats _ _ H.o, mem_singleton] at hx
        rw [hx, diagonal_transpose, diagonal_mul_diagonal, ← diagonal_one]
        congr 1
        funext i
        split_ifs <;> norm_num)
      rw [← elem_only hr] at this
      exact this
    · rw [Function.update_of_ne e] at hx
      exact (hfix g').1 _ (mem_map_of_mem (f := fun h => Interp.at W (stdAtoms W custom) (oneAt W g' h)) hx)
  · intro hfix g'
    refine ⟨fun I hI => ?_, (hfix g').2⟩
    obtain ⟨x, hx, rfl⟩ := mem_map.1 hI
    refine (hfix g').1 _ (mem_map_of_mem (f := fun h => Interp.at W (stdAtoms W custom) (oneAt W g' h)) ?_)
    by_cases e : g' = g
    · subst e; rw [H.discs] at hx; simp at hx
    · rw [Function.update_of_ne e]; exact hx

/-- **C118.** A linear layer built for `SO(n)` between representations whose ranks add up to less than `n` commutes with every
orthogonal matrix, whatever its parameters. -/
theorem C118_linear (hW : W.SingleOK g N) (H : RotationsIn W g custom rk lie disc t u)
    (hsol : SolverOK W (gensOf W (stdAtoms W custom) lie disc) solve) (hσ : NetReach W g (gensOf W (stdAtoms W custom) lie disc) solve σ)
    (ha : a.Over W g N) (ho : o.Over W g N) (hN : o.size W * a.size W ≤ N) (hrk : a.rank rk + o.rank rk < W.d g) {Ly : LinearL ℝ}
    (hL : LinearL.init W (gensOf W (stdAtoms W custom) lie disc) solve a o σ = .ok (Ly, σ'))
    {w : DMat ℝ} {β : List ℝ} (h1 : w.rows = o.size W) (h2 : w.cols = a.size W) (h3 : β.length = o.size W)
    {h : Matrix (Fin (W.d g)) (Fin (W.d g)) ℝ} (hh : hᵀ * h = 1) :
    Commutes (a.size W) (o.size W) (Ly.apply w β) (a.mat (Interp.elem W custom g h)) (o.mat (Interp.elem W custom g h)) := by
  have := (LinearL.init_meets hW gensOf_sized hsol ha ho hN σ (hσ.ok hsol) Ly σ' hL).2
  exact H.linear this ha.wf ho.wf (H.sfam ho.wf) hrk h1 h2 h3 hh

/-- **C118.** So does a network built for `SO(n)` if the ranks of consecutive representations add up to less than `n`. -/
theorem C118_network (hW : W.SingleOK g N) (H : RotationsIn W g custom rk lie disc t u)
    (hsol : SolverOK W (gensOf W (stdAtoms W custom) lie disc) solve) (hσ : NetReach W g (gensOf W (stdAtoms W custom) lie disc) solve σ)
    (hrng : RngOK rng) (hov : ∀ r ∈ a :: o :: mids, r.Over W g N ∧ r.size W + r.gates W ≤ b) (hN : b * b ≤ N)
    (hrk : IsChain (fun r s : Rep => r.rank rk + s.rank rk < W.d g) (a :: mids))
    (hrk' : (mids.getLastD a).rank rk + o.rank rk < W.d g)
    (hE : Emlp.build W (gensOf W (stdAtoms W custom) lie disc) solve rng a mids o σ = .ok (E, σ'))
    {ps : List (BlockParams ℝ)} {w : DMat ℝ} {β : List ℝ} (hp : E.Shaped ps w β) (c : ℝ) (act : ℝ → ℝ)
    {h : Matrix (Fin (W.d g)) (Fin (W.d g)) ℝ} (hh : hᵀ * h = 1) {x y : List ℝ} (hx : x.length = a.size W)
    (hy : E.apply W c act ps w β x = .ok y) : y.length = o.size W ∧
      E.apply W c act ps w β ((a.mat (Interp.elem W custom g h)).mulVec x) = .ok ((o.mat (Interp.elem W custom g h)).mulVec y) := by
  have good := (Emlp.build_meets hW gensOf_sized hsol hrng hov hN σ (hσ.ok hsol) E σ' hE).2
  by_cases hc : ∀ r ∈ mids, r.CanonicalSum W
  · have hm : ∀ r ∈ mids, r.Over W g N ∧ r.CanonicalSum W := fun r hr => ⟨(hov r (by simp [hr])).1, hc r hr⟩
    have ha := (hov a (by simp)).1
    have ho := (hov o (by simp)).1
    have hl : (mids.getLastD a).Over W g N := by
      rcases mem_cons.1 (mem_getLastD mids a) with e | e
      · rw [e]; exact ha
      · exact (hm _ e).1
    have c1 := H.blocks hW c act hh mids a E.blocks ps ha hm hrk good.blocks hp.blocks
    have c2 := H.linear good.last hl.wf ho.wf (H.sfam ho.wf) hrk' (w := w) (β := β) (by rw [hp.rows, good.last.nout]) (by rw [hp.cols, good.last.nin])
      (by rw [hp.b, good.last.nout]) hh
    obtain ⟨z, h1, h2, h3⟩ := c1.comp c2 x hx
    have hy' : E.apply W c act ps w β x = .ok z := h1
    rw [hy'] at hy
    have := Except.ok.inj hy
    subst this
    exact ⟨h2, h3⟩
  · push Not at hc
    obtain ⟨e, he⟩ := good.raises (fun r hr => (hov r (by simp [hr])).1) hc c act hp.blocks.length_eq.symm x (w := w) (β := β)
    rw [he] at hy
    cases hy

end

/-! Cases: `SO(n)` at any group of the example environment that is flagged orthogonal and not a permutation group; `SO(3)` at group 0,
`SO(2)` at group 3. -/

/-- these matrices at group `g`, none at the others -/
def matsAt (g : Gid) (l : List (Matrix (Fin (exW.d g)) (Fin (exW.d g)) ℝ)) : ∀ g, List (Matrix (Fin (exW.d g)) (Fin (exW.d g)) ℝ) :=
  Function.update (fun _ => []) g l

theorem matsAt_self (g : Gid) (l : List (Matrix (Fin (exW.d g)) (Fin (exW.d g)) ℝ)) : matsAt g l g = l := by rw [matsAt, Function.update_self]

theorem matsAt_ne {g g' : Gid} (l : List (Matrix (Fin (exW.d g)) (Fin (exW.d g)) ℝ)) (e : g' ≠ g) : matsAt g l g' = [] := by
  rw [matsAt, Function.update_of_ne e]

theorem exRotations {g : Gid} (h1 : g ≠ 1) (h2 : g ≠ 2) : ∃ t u : Arr3 ℝ,
    RotationsIn exW g (fun k g => trivialAtom _ _) (fun k => if k = 0 then 1 else 0) (matsAt g (t.mats (exW.d g))) (fun _ => []) t u := by
  have hd : 0 < exW.d g := by simp only [exW]; split_ifs <;> norm_num
  obtain ⟨t, u, ht, hu, h⟩ := C115_o (exW.d g) hd
  have hlie := fun g' (e : g' ≠ g) => matsAt_ne (t.mats (exW.d g)) e
  have hdisc := fun g' (e : g' ≠ g) => matsAt_ne (u.mats (exW.d g)) e
  have e0 : (Function.update (fun _ => []) g (u.mats (exW.d g)) : ∀ g, List (Matrix (Fin (exW.d g)) (Fin (exW.d g)) ℝ)) = matsAt g (u.mats (exW.d g)) := rfl
  refine ⟨t, u, ht, hu, matsAt_self _ _, rfl, e0 ▸ ⟨fun g' x hx => ?_, fun g' _ => ⟨fun A hA => ?_, fun x hx => ?_⟩, fun k g' => trivialAtom_hom _ _,
    fun k g' _ M _ => by simp [trivialAtom], fun g' hp => ?_⟩, by simp, fun k => ⟨fun _ _ => 0, fun _ => by simp, fun ε => ?_⟩⟩
  · by_cases e : g' = g
    · subst e
      rw [matsAt_self] at hx
      have := (h x).1 (.gen hx)
      have := congrArg det this
      rw [det_mul, det_transpose, det_one] at this
      exact IsUnit.of_mul_eq_one _ this
    · rw [hdisc g' e] at hx; simp at hx
  · by_cases e : g' = g
    · subst e
      rw [matsAt_self] at hA
      exact so_mats_anti ht A hA
    · rw [hlie g' e] at hA; simp at hA
  · by_cases e : g' = g
    · subst e
      rw [matsAt_self] at hx
      exact (h x).1 (.gen hx)
    · rw [hdisc g' e] at hx; simp at hx
  · have e : g' = 2 := by simpa [exW] using hp
    rw [hlie g' (by rw [e]; exact Ne.symm h2), hdisc g' (by rw [e]; exact Ne.symm h2)]
    simp
  · simp [trivialAtom]

/-- the ranks of `V → V` for `SO(3)` add up to two, and there is such a layer; `V⊗V → V` would reach three -/
example : ∃ (t u : Arr3 ℝ) (lie : ∀ g, List (Matrix (Fin (exW.d g)) (Fin (exW.d g)) ℝ)) (solve : ℕ → LinOp ℝ → Py (DMat ℝ)) (L : LinearL ℝ) (σ' : NetSt ℝ),
    RotationsIn exW 0 (fun k g => trivialAtom _ _) (fun k => if k = 0 then 1 else 0) lie (fun _ => []) t u ∧ exW.d 0 = 3 ∧
    (vecRep 0).rank (fun k => if k = 0 then 1 else 0) + (vecRep 0).rank (fun k => if k = 0 then 1 else 0) < exW.d 0 ∧
    LinearL.init exW (gensOf exW (stdAtoms exW fun k g => trivialAtom _ _) lie fun _ => []) solve (vecRep 0) (vecRep 0) ⟨freshSt, none, 0⟩ = .ok (L, σ') := by
  obtain ⟨t, u, H⟩ := exRotations (g := 0) (by decide) (by decide)
  obtain ⟨s, h1, h2⟩ := exists_solver ℝ
  have hov := vecRep_over (W := exW) (g := 0) (N := 81) (by decide) (by decide)
  obtain ⟨L, σ', h⟩ := (C30_linear (exW_single 0 81 (by decide)) H.ok' (h1 _ _) (.start none 0 fun h e => by simp at e) hov hov (by decide)).2 fun _ _ C _ => h2 C
  exact ⟨t, u, _, _, L, σ', H, rfl, by decide, h⟩

/-- A case for the network: for `SO(3)`, `V → Scalar + 2V → Scalar + 2V → Scalar`. -/
example : IsChain (fun r s : Rep => r.rank (fun k => if k = 0 then 1 else 0) + s.rank (fun k => if k = 0 then 1 else 0) < exW.d 0) [vecRep 0, .sum exS, .sum exS] ∧
    ([Rep.sum exS, .sum exS].getLastD (vecRep 0)).rank (fun k => if k = 0 then 1 else 0) + (Rep.key .scalar).rank (fun k => if k = 0 then 1 else 0) < exW.d 0 := by
  refine ⟨.cons_cons ?_ (.cons_cons ?_ (.singleton _)), ?_⟩ <;> decide +kernel

/-- **C118.** The bound is sharp: for `SO(2)` the ranks of `V → V` add up to two, and there are parameters with which such a layer (the
rotation by a right angle) does not commute with the reflection. -/
theorem C118_sharp : ∃ (t u : Arr3 ℝ) (lie : ∀ g, List (Matrix (Fin (exW.d g)) (Fin (exW.d g)) ℝ)) (solve : ℕ → LinOp ℝ → Py (DMat ℝ)) (L : LinearL ℝ)
    (σ' : NetSt ℝ) (w : DMat ℝ) (β : List ℝ) (h : Matrix (Fin (exW.d 3)) (Fin (exW.d 3)) ℝ),
    RotationsIn exW 3 (fun k g => trivialAtom _ _) (fun k => if k = 0 then 1 else 0) lie (fun _ => []) t u ∧
    SolverOK exW (gensOf exW (stdAtoms exW fun k g => trivialAtom _ _) lie fun _ => []) solve ∧
    (vecRep 3).rank (fun k => if k = 0 then 1 else 0) + (vecRep 3).rank (fun k => if k = 0 then 1 else 0) = exW.d 3 ∧
    LinearL.init exW (gensOf exW (stdAtoms exW fun k g => trivialAtom _ _) lie fun _ => []) solve (vecRep 3) (vecRep 3) ⟨freshSt, none, 0⟩ = .ok (L, σ') ∧
    w.rows = (vecRep 3).size exW ∧ w.cols = (vecRep 3).size exW ∧ β.length = (vecRep 3).size exW ∧ hᵀ * h = 1 ∧
    ¬ Commutes ((vecRep 3).size exW) ((vecRep 3).size exW) (L.apply w β) ((vecRep 3).mat (Interp.elem exW (fun k g => trivialAtom _ _) 3 h))
      ((vecRep 3).mat (Interp.elem exW (fun k g => trivialAtom _ _) 3 h)) := by
  obtain ⟨t, u, H⟩ := exRotations (g := 3) (by decide) (by decide)
  obtain ⟨s, h1, h2⟩ := exists_solver ℝ
  have hov := vecRep_over (W := exW) (g := 3) (N := 81) (by decide) (by decide)
  have hreach : NetReach exW 3 (gensOf exW (stdAtoms exW fun k g => trivialAtom _ _) (matsAt 3 (t.mats (exW.d 3))) fun _ => []) (fun _ => s) ⟨freshSt, none, 0⟩ :=
    .start none 0 fun h e => by simp at e
  obtain ⟨L, σ', h⟩ := (C30_linear (exW_single 3 81 (by decide)) H.ok' (h1 _ _) hreach hov hov (by decide)).2 fun _ _ C _ => h2 C
  obtain ⟨t', ht', hc, -⟩ := C104_so2
  have hso := H.so
  replace hso : soLie 2 = .ok t := hso
  rw [ht'] at hso
  cases hso
  have hJ : (!![0, -1; 1, 0] : Matrix (Fin 2) (Fin 2) ℝ) ∈ commutant (t.mats 2) [] := (hc _).2 ⟨0, 1, rfl⟩
  obtain ⟨J, hJe, hJc⟩ : ∃ J : Matrix (Fin (exW.d 3)) (Fin (exW.d 3)) ℝ, J = (!![0, -1; 1, 0] : Matrix (Fin 2) (Fin 2) ℝ) ∧
      J ∈ commutant (matsAt 3 (t.mats (exW.d 3)) 3) [] := ⟨_, rfl, by rw [matsAt_self]; exact hJ⟩
  obtain ⟨w, β, w1, w2, w3, hw⟩ := (C104_vector_layers (exW_single 3 81 (by decide)) H.ok' (h1 _ _) hreach (by decide) (by decide) h fun x => J.mulVec x).2
    ⟨J, hJc, 0, by simp, fun x => by simp⟩
  have hD0 : (!![-1, 0; 0, 1] : Matrix (Fin 2) (Fin 2) ℝ)ᵀ * !![-1, 0; 0, 1] = 1 := by
    ext i j
    fin_cases i <;> fin_cases j <;> simp [Matrix.mul_apply]
  obtain ⟨D, hDe, hDo⟩ : ∃ D : Matrix (Fin (exW.d 3)) (Fin (exW.d 3)) ℝ, D = (!![-1, 0; 0, 1] : Matrix (Fin 2) (Fin 2) ℝ) ∧ Dᵀ * D = 1 :=
    ⟨_, rfl, hD0⟩
  refine ⟨t, u, _, _, L, σ', w, β, D, H, h1 _ _, rfl, h, w1, w2, w3, hDo, fun hcom => ?_⟩
  obtain ⟨e, he⟩ : ∃ e : Fin (exW.d 3) → ℝ, e = (![1, 0] : Fin 2 → ℝ) := ⟨_, rfl⟩
  obtain ⟨y, y1, -, y3⟩ := hcom (List.ofFn e) (by simp; rfl)
  rw [hw] at y1
  rw [vecRep_mat, DMat.ofMatrix_mulVec, hw, ← Except.ok.inj y1, DMat.ofMatrix_mulVec] at y3
  have y4 := List.ofFn_injective (Except.ok.inj y3)
  subst hJe hDe he
  have y5 : (!![0, -1; 1, 0] : Matrix (Fin 2) (Fin 2) ℝ).mulVec ((!![-1, 0; 0, 1] : Matrix (Fin 2) (Fin 2) ℝ).mulVec ![1, 0]) 1 =
    (!![-1, 0; 0, 1] : Matrix (Fin 2) (Fin 2) ℝ).mulVec ((!![0, -1; 1, 0] : Matrix (Fin 2) (Fin 2) ℝ).mulVec ![1, 0]) 1 := congrFun y4 (1 : Fin 2)
  simp [Matrix.mulVec, dotProduct] at y5
  norm_num at y5

end Verif
