import Verif.Props.Universal
import Verif.Props.Depth
import Verif.Lemmas.LinApply5
import Verif.Props.RepAlgebra

/-! C135: stacking, adding and splitting Linear layers. -/
namespace Verif
open List

/-- `f` is one of the functions that the layer `L = Linear(a, o)` computes for the various values of its weight and bias (specification;
the layer itself is nn/objax.py:31-48). -/
def LinearL.Computes (W : World) (L : LinearL ℝ) (a o : Rep) (f : List ℝ → List ℝ) : Prop :=
  ∃ (w : DMat ℝ) (b : List ℝ), w.rows = o.size W ∧ w.cols = a.size W ∧ b.length = o.size W ∧ ∀ x : List ℝ, x.length = a.size W → L.apply w b x = .ok (f x)

/-- `L` is `Linear(a, o)`, constructed after some history of calls. -/
def LinearL.Built (W : World) (g : Gid) (gens : Gid → GenSet ℝ) (solve : ℕ → LinOp ℝ → Py (DMat ℝ)) (a o : Rep) (L : LinearL ℝ) : Prop :=
  ∃ σ σ', NetReach W g gens solve σ ∧ LinearL.init W gens solve a o σ = .ok (L, σ')

theorem addv_swap {u v u' v' : List ℝ} (h : u.length = v.length) (h1 : u'.length = u.length) (h2 : v'.length = v.length) :
    zipWith (· + ·) (zipWith (· + ·) u v) (zipWith (· + ·) u' v') = zipWith (· + ·) (zipWith (· + ·) u u') (zipWith (· + ·) v v') := by
  refine List.ext_getElem (by simp [h, h1, h2]) fun i _ _ => ?_
  simp only [getElem_zipWith]
  ring

theorem addv_assoc (u v w : List ℝ) : zipWith (· + ·) (zipWith (· + ·) u v) w = zipWith (· + ·) u (zipWith (· + ·) v w) := by
  refine List.ext_getElem (by simp [Nat.min_assoc]) fun i _ _ => ?_
  simp only [getElem_zipWith]
  ring

theorem addv_zero {n : ℕ} {u : List ℝ} (h : u.length = n) : zipWith (· + ·) u (replicate n 0) = u := by
  refine List.ext_getElem (by simp [h]) fun i _ _ => ?_
  simp

theorem zero_addv {n : ℕ} {u : List ℝ} (h : u.length = n) : zipWith (· + ·) (replicate n 0) u = u := by
  refine List.ext_getElem (by simp [h]) fun i _ _ => ?_
  simp

theorem zero_mulVec {m n : ℕ} (x : List ℝ) : (DMat.zero m n : DMat ℝ).mulVec x = replicate m 0 := by
  refine DMat.vec_ext (by simp [DMat.zero]) fun i hi => ?_
  have hi' : i < m := by simpa [DMat.zero] using hi
  rw [DMat.getD_mulVec (A := DMat.zero m n) hi', Finset.sum_eq_zero fun j hj => by
    rw [show (DMat.zero m n : DMat ℝ).e i j = 0 from DMat.of_e hi' (Finset.mem_range.1 hj), zero_mul]]
  simp

/-- affine, between lists of given lengths -/
def Affine (n m : ℕ) (f : List ℝ → List ℝ) : Prop :=
  ∃ (M : DMat ℝ) (c : List ℝ), M.rows = m ∧ M.cols = n ∧ c.length = m ∧ ∀ x : List ℝ, x.length = n → f x = zipWith (· + ·) (M.mulVec x) c

namespace Affine
variable {n m k : ℕ} {f f' : List ℝ → List ℝ}

theorem length (h : Affine n m f) {x : List ℝ} (hx : x.length = n) : (f x).length = m := by
  obtain ⟨M, c, h1, -, h3, h4⟩ := h
  rw [h4 x hx, length_zipWith, DMat.length_mulVec, h1, h3, Nat.min_self]

theorem congr (h : Affine n m f) (he : ∀ x : List ℝ, x.length = n → f' x = f x) : Affine n m f' := by
  obtain ⟨M, c, h1, h2, h3, h4⟩ := h
  exact ⟨M, c, h1, h2, h3, fun x hx => (he x hx).trans (h4 x hx)⟩

theorem lin {M : DMat ℝ} (h1 : M.rows = m) (h2 : M.cols = n) : Affine n m M.mulVec :=
  ⟨M, replicate m 0, h1, h2, by simp, fun x _ => (addv_zero (by rw [DMat.length_mulVec, h1])).symm⟩

theorem comp (h : Affine n m f) (h' : Affine m k f') : Affine n k fun x => f' (f x) := by
  have hl := fun {x} => h.length (x := x)
  obtain ⟨M, c, h1, h2, h3, h4⟩ := h
  obtain ⟨M', c', h1', h2', h3', h4'⟩ := h'
  refine ⟨M'.mul M, zipWith (· + ·) (M'.mulVec c) c', h1', h2, by rw [length_zipWith, DMat.length_mulVec, h1', h3', Nat.min_self], fun x hx => ?_⟩
  show f' (f x) = _
  rw [h4' _ (hl hx), h4 x hx, DMat.mulVec_add _ (by rw [DMat.length_mulVec, h1, h3]), ← DMat.mulVec_mul _ _ _ (by rw [h2', h1]), addv_assoc]

theorem add (h : Affine n m f) (h' : Affine n m f') : Affine n m fun x => zipWith (· + ·) (f x) (f' x) := by
  obtain ⟨M, c, h1, h2, h3, h4⟩ := h
  obtain ⟨M', c', h1', h2', h3', h4'⟩ := h'
  refine ⟨M.add M', zipWith (· + ·) c c', h1, h2, by rw [length_zipWith, h3, h3', Nat.min_self], fun x hx => ?_⟩
  show zipWith (· + ·) (f x) (f' x) = _
  rw [h4' x hx, h4 x hx, addv_swap (by rw [DMat.length_mulVec, h1, h3]) (by rw [DMat.length_mulVec, DMat.length_mulVec, h1, h1']) (by rw [h3, h3']),
    Act.add_mulVec x (h1.trans h1'.symm) (h2.trans h2'.symm)]

theorem smul (r : ℝ) (h : Affine n m f) : Affine n m fun x => (f x).map (r * ·) := by
  have := h.comp (Affine.lin (M := DMat.smul r (DMat.one m)) (m := m) rfl rfl)
  refine this.congr fun x hx => ?_
  show (f x).map (r * ·) = _
  rw [← Act.smul_mulVec, DMat.mulVec_one _ (h.length hx)]

/-- a value at a sum in terms of values at the summands -/
theorem parallelogram (h : Affine n m f) {x y : List ℝ} (hx : x.length = n) (hy : y.length = n) :
    f (zipWith (· + ·) x y) = zipWith (· + ·) (f x) (zipWith (· + ·) (f y) ((f (replicate n 0)).map (-1 * ·))) := by
  obtain ⟨M, c, h1, h2, h3, h4⟩ := h
  rw [h4 _ (by simp [hx, hy]), h4 x hx, h4 y hy, h4 _ (by simp), DMat.mulVec_add _ (by rw [hx, hy]), DMat.mulVec_replicate_zero]
  refine List.ext_getElem (by simp [h1, h3]) fun i _ _ => ?_
  simp only [getElem_zipWith, getElem_map, getElem_replicate]
  ring

end Affine

section
variable (W : World) (g : Gid) (custom : ∀ k g, AtomRep ℝ (W.d g) (W.usize k g)) (lie disc : ∀ g, List (Matrix (Fin (W.d g)) (Fin (W.d g)) ℝ))

/-- affine and equivariant -/
def AE (a o : Rep) (f : List ℝ → List ℝ) : Prop :=
  Affine (a.size W) (o.size W) f ∧ ∀ h, Generated (lie g) (disc g) h → ∀ x : List ℝ, x.length = a.size W →
    f ((a.mat (Interp.elem W custom g h)).mulVec x) = (o.mat (Interp.elem W custom g h)).mulVec (f x)

end

section
variable {W : World} {g : Gid} {N : ℕ} {custom : ∀ k g, AtomRep ℝ (W.d g) (W.usize k g)}
  {lie disc : ∀ g, List (Matrix (Fin (W.d g)) (Fin (W.d g)) ℝ)} {solve : ℕ → LinOp ℝ → Py (DMat ℝ)} {a b o s : Rep} {f f' : List ℝ → List ℝ}

theorem elem_rows (h : Matrix (Fin (W.d g)) (Fin (W.d g)) ℝ) (hr : a.WF W) : (a.mat (Interp.elem W custom g h)).rows = a.size W := (Rep.mat_sq (at_sized _) hr).1

namespace AE

theorem congr (h : AE W g custom lie disc a o f) (ha : a.WF W) (he : ∀ x : List ℝ, x.length = a.size W → f' x = f x) : AE W g custom lie disc a o f' :=
  ⟨h.1.congr he, fun t ht x hx => by
    rw [he x hx, he _ (by rw [DMat.length_mulVec, elem_rows _ ha]), h.2 t ht x hx]⟩

theorem comp (h : AE W g custom lie disc a b f) (h' : AE W g custom lie disc b o f') : AE W g custom lie disc a o fun x => f' (f x) :=
  ⟨h.1.comp h'.1, fun t ht x hx => by
    show f' (f _) = _
    rw [h.2 t ht x hx, h'.2 t ht _ (h.1.length hx)]⟩

theorem add (h : AE W g custom lie disc a o f) (h' : AE W g custom lie disc a o f') : AE W g custom lie disc a o fun x => zipWith (· + ·) (f x) (f' x) :=
  ⟨h.1.add h'.1, fun t ht x hx => by
    show zipWith _ (f _) (f' _) = _
    rw [h.2 t ht x hx, h'.2 t ht x hx, DMat.mulVec_add _ (by rw [h.1.length hx, h'.1.length hx])]⟩

theorem smul (r : ℝ) (h : AE W g custom lie disc a o f) : AE W g custom lie disc a o fun x => (f x).map (r * ·) :=
  ⟨h.1.smul r, fun t ht x hx => by
    show (f _).map _ = _
    rw [h.2 t ht x hx, mulVec_smul]⟩

theorem id : AE W g custom lie disc a a fun x => x :=
  ⟨(Affine.lin (M := DMat.one (a.size W)) rfl rfl).congr fun x hx => (DMat.mulVec_one x hx).symm, fun _ _ _ _ => rfl⟩

theorem zero (ho : o.WF W) : AE W g custom lie disc a o fun _ => replicate (o.size W) 0 :=
  ⟨(Affine.lin (M := DMat.zero (o.size W) (a.size W)) rfl rfl).congr fun x _ => (zero_mulVec x).symm, fun t _ x _ => by
    show _ = DMat.mulVec _ (replicate _ 0)
    rw [DMat.mulVec_replicate_zero, elem_rows _ ho]⟩

/-- the summands of a direct sum -/
structure Sum (W : World) (g : Gid) (custom : ∀ k g, AtomRep ℝ (W.d g) (W.usize k g)) (a b s : Rep) : Prop where
  size : s.size W = a.size W + b.size W
  act : ∀ (h : Matrix (Fin (W.d g)) (Fin (W.d g)) ℝ) (v w : List ℝ), v.length = a.size W → w.length = b.size W →
    (s.mat (Interp.elem W custom g h)).mulVec (v ++ w) = (a.mat (Interp.elem W custom g h)).mulVec v ++ (b.mat (Interp.elem W custom g h)).mulVec w

theorem inl (hs : Sum W g custom a b s) (hb : b.WF W) : AE W g custom lie disc a s fun x => x ++ replicate (b.size W) 0 :=
  ⟨(Affine.lin (M := DMat.vstack2 (DMat.one (a.size W)) (DMat.zero (b.size W) (a.size W))) hs.size.symm rfl).congr fun x hx => by
      show _ = (DMat.vstack2 _ _).mulVec x
      rw [DMat.vstack2_mulVec _ _ _ (by rfl), DMat.mulVec_one (n := Rep.size W _) x (by exact hx), zero_mulVec], fun t _ x hx => by
    show _ ++ _ = DMat.mulVec _ (x ++ _)
    rw [hs.act t x _ hx (by simp), DMat.mulVec_replicate_zero, elem_rows _ hb]⟩

theorem inr (hs : Sum W g custom a b s) (ha : a.WF W) : AE W g custom lie disc b s fun x => replicate (a.size W) 0 ++ x :=
  ⟨(Affine.lin (M := DMat.vstack2 (DMat.zero (a.size W) (b.size W)) (DMat.one (b.size W))) hs.size.symm rfl).congr fun x hx => by
      show _ = (DMat.vstack2 _ _).mulVec x
      rw [DMat.vstack2_mulVec _ _ _ (by rfl), DMat.mulVec_one (n := Rep.size W _) x (by exact hx), zero_mulVec], fun t _ x hx => by
    show _ ++ _ = DMat.mulVec _ (_ ++ x)
    rw [hs.act t _ x (by simp) hx, DMat.mulVec_replicate_zero, elem_rows _ ha]⟩

theorem split {m n : ℕ} {x : List ℝ} (h : x.length = m + n) : ∃ u v : List ℝ, u.length = m ∧ v.length = n ∧ u ++ v = x :=
  ⟨x.take m, x.drop m, by simp [h], by simp [h], take_append_drop m x⟩

theorem fst (hs : Sum W g custom a b s) (ha : a.WF W) : AE W g custom lie disc s a fun x => x.take (a.size W) := by
  refine ⟨(Affine.lin (M := DMat.of (a.size W) (a.size W + b.size W) fun i j => if i = j then 1 else 0) rfl hs.size.symm).congr fun x hx => ?_, fun t _ x hx => ?_⟩
  · refine DMat.vec_ext (by simp [hx, hs.size]) fun i hi => ?_
    have hi' : i < a.size W := by
      rw [length_take] at hi
      omega
    rw [DMat.getD_mulVec (A := DMat.of (a.size W) (a.size W + b.size W) fun i j => if i = j then 1 else 0) hi', Finset.sum_eq_single i]
    · rw [DMat.of_e hi' (by omega), if_pos rfl, one_mul, getD_eq_getElem _ _ hi, getElem_take, getD_eq_getElem]
    · intro j hj hji
      rw [DMat.of_e (n := a.size W + b.size W) hi' (by exact Finset.mem_range.1 hj), if_neg (Ne.symm hji), zero_mul]
    · intro hn
      exact absurd (Finset.mem_range.2 (by simp; omega)) hn
  · obtain ⟨u, v, hu, hv, rfl⟩ := split (hx.trans hs.size)
    show take _ (DMat.mulVec _ _) = DMat.mulVec _ (take _ _)
    rw [hs.act t u v hu hv, take_left' hu, take_left' (by rw [DMat.length_mulVec, elem_rows _ ha])]

theorem snd (hs : Sum W g custom a b s) (ha : a.WF W) : AE W g custom lie disc s b fun x => x.drop (a.size W) := by
  refine ⟨(Affine.lin (M := DMat.of (b.size W) (a.size W + b.size W) fun i j => if a.size W + i = j then 1 else 0) rfl hs.size.symm).congr fun x hx => ?_, fun t _ x hx => ?_⟩
  · refine DMat.vec_ext (by simp [hx, hs.size]) fun i hi => ?_
    have hi' : i < b.size W := by
      rw [length_drop, hx, hs.size] at hi
      omega
    rw [DMat.getD_mulVec (A := DMat.of (b.size W) (a.size W + b.size W) fun i j => if a.size W + i = j then 1 else 0) hi', Finset.sum_eq_single (a.size W + i)]
    · rw [DMat.of_e hi' (by omega), if_pos rfl, one_mul, getD_eq_getElem _ _ hi, getElem_drop, getD_eq_getElem]
    · intro j hj hji
      rw [DMat.of_e (n := a.size W + b.size W) hi' (by exact Finset.mem_range.1 hj), if_neg (Ne.symm hji), zero_mul]
    · intro hn
      exact absurd (Finset.mem_range.2 (by simp; omega)) hn
  · obtain ⟨u, v, hu, hv, rfl⟩ := split (hx.trans hs.size)
    show drop _ (DMat.mulVec _ _) = DMat.mulVec _ (drop _ _)
    rw [hs.act t u v hu hv, drop_left' hu, drop_left' (by rw [DMat.length_mulVec, elem_rows _ ha])]

end AE

theorem sum_over (hW : W.SingleOK g N) (ha : a.Over W g N) (hb : b.Over W g N) (hs : Rep.add W a b = .ok s) : s.Over W g N ∧ AE.Sum W g custom a b s := by
  have hst := World.Single.st hW (a.keys W ++ b.keys W) fun k hk => (mem_append.1 hk).elim (ha.key k) (hb.key k)
  obtain ⟨r, h1, h2, h3, h4, h5⟩ := Rep.add_spec ha.wf hb.wf hst
  rw [hs] at h1
  cases h1
  refine ⟨⟨h2, fun k hk => ((h3 k).1 hk).elim (ha.key k) (hb.key k)⟩, h4, fun h v w hv hw => ?_⟩
  obtain ⟨r, h6, -, h7⟩ := C01_add ha.wf hb.wf hst
  rw [hs] at h6
  cases h6
  exact (h7 ℝ _ (at_sized _) v w hv hw).1

theorem LinearL.Built.iff (hW : W.SingleOK g N) (ok : GroupsOK W custom lie disc) (hsol : SolverOK W (gensOf W (stdAtoms W custom) lie disc) solve)
    (ha : a.Over W g N) (ho : o.Over W g N) (hN : o.size W * a.size W ≤ N) {L : LinearL ℝ} (hL : L.Built W g (gensOf W (stdAtoms W custom) lie disc) solve a o) :
    L.Computes W a o f ↔ AE W g custom lie disc a o f := by
  obtain ⟨σ, σ', hσ, h⟩ := hL
  exact C104_layers hW ok hsol hσ ha ho hN h f

/-- **C135.** Two Linear layers one after the other compute nothing that one Linear layer does not compute. -/
theorem C135_compose (hW : W.SingleOK g N) (ok : GroupsOK W custom lie disc) (hsol : SolverOK W (gensOf W (stdAtoms W custom) lie disc) solve)
    (ha : a.Over W g N) (hb : b.Over W g N) (ho : o.Over W g N) (h1 : b.size W * a.size W ≤ N) (h2 : o.size W * b.size W ≤ N) (h3 : o.size W * a.size W ≤ N)
    {L L' L'' : LinearL ℝ} (hL : L.Built W g (gensOf W (stdAtoms W custom) lie disc) solve a b) (hL' : L'.Built W g (gensOf W (stdAtoms W custom) lie disc) solve b o)
    (hL'' : L''.Built W g (gensOf W (stdAtoms W custom) lie disc) solve a o) (hf : L.Computes W a b f) (hf' : L'.Computes W b o f') :
    L''.Computes W a o fun x => f' (f x) :=
  (hL''.iff hW ok hsol ha ho h3).2 (((hL.iff hW ok hsol ha hb h1).1 hf).comp ((hL'.iff hW ok hsol hb ho h2).1 hf'))

/-- **C135.** The functions that a Linear layer computes form a vector space: sums and multiples of them are among them. -/
theorem C135_space (hW : W.SingleOK g N) (ok : GroupsOK W custom lie disc) (hsol : SolverOK W (gensOf W (stdAtoms W custom) lie disc) solve)
    (ha : a.Over W g N) (ho : o.Over W g N) (hN : o.size W * a.size W ≤ N)
    {L : LinearL ℝ} (hL : L.Built W g (gensOf W (stdAtoms W custom) lie disc) solve a o) (hf : L.Computes W a o f) (hf' : L.Computes W a o f') (r r' : ℝ) :
    L.Computes W a o fun x => zipWith (fun u v => r * u + r' * v) (f x) (f' x) := by
  have k := hL.iff (f := fun x => zipWith (fun u v => r * u + r' * v) (f x) (f' x)) hW ok hsol ha ho hN
  refine k.2 (((((hL.iff hW ok hsol ha ho hN).1 hf).smul r).add (((hL.iff hW ok hsol ha ho hN).1 hf').smul r')).congr ha.wf fun x _ => ?_)
  rw [zipWith_map]

/-- **C135.** A Linear layer from a representation to itself computes the identity. -/
theorem C135_identity (hW : W.SingleOK g N) (ok : GroupsOK W custom lie disc) (hsol : SolverOK W (gensOf W (stdAtoms W custom) lie disc) solve)
    (ha : a.Over W g N) (hN : a.size W * a.size W ≤ N)
    {L : LinearL ℝ} (hL : L.Built W g (gensOf W (stdAtoms W custom) lie disc) solve a a) : L.Computes W a a fun x => x :=
  (hL.iff hW ok hsol ha ha hN).2 AE.id

/-- **C135.** What a Linear layer computes on `a + b` is what the layers on `a` and on `b` compute, added. -/
theorem C135_inputs (hW : W.SingleOK g N) (ok : GroupsOK W custom lie disc) (hsol : SolverOK W (gensOf W (stdAtoms W custom) lie disc) solve)
    (ha : a.Over W g N) (hb : b.Over W g N) (ho : o.Over W g N) (hs : Rep.add W a b = .ok s) (hN : o.size W * s.size W ≤ N)
    {L L' L'' : LinearL ℝ} (hL : L.Built W g (gensOf W (stdAtoms W custom) lie disc) solve s o) (hL' : L'.Built W g (gensOf W (stdAtoms W custom) lie disc) solve a o)
    (hL'' : L''.Built W g (gensOf W (stdAtoms W custom) lie disc) solve b o) (f : List ℝ → List ℝ) :
    L.Computes W s o f ↔ ∃ f₁ f₂, L'.Computes W a o f₁ ∧ L''.Computes W b o f₂ ∧
      ∀ x y : List ℝ, x.length = a.size W → y.length = b.size W → f (x ++ y) = zipWith (· + ·) (f₁ x) (f₂ y) := by
  obtain ⟨so, sm⟩ := sum_over (custom := custom) hW ha hb hs
  have n1 : o.size W * a.size W ≤ N := le_trans (Nat.mul_le_mul_left _ (by rw [sm.size]; omega)) hN
  have n2 : o.size W * b.size W ≤ N := le_trans (Nat.mul_le_mul_left _ (by rw [sm.size]; omega)) hN
  rw [hL.iff hW ok hsol so ho hN]
  constructor
  · intro h
    refine ⟨_, _, (hL'.iff hW ok hsol ha ho n1).2 ((AE.inl sm hb.wf).comp h), (hL''.iff hW ok hsol hb ho n2).2
      (((AE.inr sm ha.wf).comp h).add (((AE.zero so.wf).comp h).smul (-1))), fun x y hx hy => ?_⟩
    rw [← h.1.parallelogram (by simp [hx, sm.size]) (by simp [hy, sm.size])]
    congr 1
    rw [zipWith_append (by simp [hx]), addv_zero hx, zero_addv hy]
  · rintro ⟨f₁, f₂, h1, h2, h3⟩
    refine (((AE.fst sm ha.wf).comp ((hL'.iff hW ok hsol ha ho n1).1 h1)).add ((AE.snd sm ha.wf).comp ((hL''.iff hW ok hsol hb ho n2).1 h2))).congr so.wf fun x hx => ?_
    obtain ⟨u, v, hu, hv, rfl⟩ := AE.split (hx.trans sm.size)
    show f _ = zipWith _ (f₁ (take _ _)) (f₂ (drop _ _))
    rw [h3 u v hu hv, take_left' hu, drop_left' hu]

/-- **C135.** What a Linear layer computes into `a + b` is what the layers into `a` and into `b` compute, side by side. -/
theorem C135_outputs (hW : W.SingleOK g N) (ok : GroupsOK W custom lie disc) (hsol : SolverOK W (gensOf W (stdAtoms W custom) lie disc) solve)
    (ha : a.Over W g N) (hb : b.Over W g N) (ho : o.Over W g N) (hs : Rep.add W a b = .ok s) (hN : s.size W * o.size W ≤ N)
    {L L' L'' : LinearL ℝ} (hL : L.Built W g (gensOf W (stdAtoms W custom) lie disc) solve o s) (hL' : L'.Built W g (gensOf W (stdAtoms W custom) lie disc) solve o a)
    (hL'' : L''.Built W g (gensOf W (stdAtoms W custom) lie disc) solve o b) (f : List ℝ → List ℝ) :
    L.Computes W o s f ↔ ∃ f₁ f₂, L'.Computes W o a f₁ ∧ L''.Computes W o b f₂ ∧ ∀ x : List ℝ, x.length = o.size W → f x = f₁ x ++ f₂ x := by
  obtain ⟨so, sm⟩ := sum_over (custom := custom) hW ha hb hs
  have n1 : a.size W * o.size W ≤ N := le_trans (Nat.mul_le_mul_right _ (by rw [sm.size]; omega)) hN
  have n2 : b.size W * o.size W ≤ N := le_trans (Nat.mul_le_mul_right _ (by rw [sm.size]; omega)) hN
  rw [hL.iff hW ok hsol ho so hN]
  constructor
  · intro h
    exact ⟨_, _, (hL'.iff hW ok hsol ho ha n1).2 (h.comp (AE.fst sm ha.wf)), (hL''.iff hW ok hsol ho hb n2).2 (h.comp (AE.snd sm ha.wf)),
      fun x _ => (take_append_drop _ _).symm⟩
  · rintro ⟨f₁, f₂, h1, h2, h3⟩
    have k1 := (hL'.iff hW ok hsol ho ha n1).1 h1
    have k2 := (hL''.iff hW ok hsol ho hb n2).1 h2
    refine ((k1.comp (AE.inl sm hb.wf)).add (k2.comp (AE.inr sm ha.wf))).congr ho.wf fun x hx => ?_
    show _ = zipWith _ (f₁ x ++ _) (_ ++ f₂ x)
    rw [zipWith_append (by simp [k1.1.length hx]), addv_zero (k1.1.length hx), zero_addv (k2.1.length hx), h3 x hx]

end

/-- The hypotheses can be met: layers between vectors, pairs of vectors and vectors for the rotations about an axis. -/
example : ∃ (solve : ℕ → LinOp ℝ → Py (DMat ℝ)) (s : Rep) (L L' L'' : LinearL ℝ),
    exW.SingleOK 0 81 ∧ GroupsOK exW (fun k g => trivialAtom _ _) rotLies (fun _ => []) ∧ SolverOK exW (gensOf exW (stdAtoms exW fun k g => trivialAtom _ _) rotLies fun _ => []) solve ∧
    (Rep.key (.fac (.atom (.vec 0 (some 0))))).Over exW 0 81 ∧
    Rep.add exW (.key (.fac (.atom (.vec 0 (some 0))))) (.key (.fac (.atom (.vec 0 (some 0))))) = .ok s ∧ s.size exW = 6 ∧ s.size exW * 3 ≤ 81 ∧
    L.Built exW 0 (gensOf exW (stdAtoms exW fun k g => trivialAtom _ _) rotLies fun _ => []) solve s (.key (.fac (.atom (.vec 0 (some 0))))) ∧
    L'.Built exW 0 (gensOf exW (stdAtoms exW fun k g => trivialAtom _ _) rotLies fun _ => []) solve (.key (.fac (.atom (.vec 0 (some 0))))) (.key (.fac (.atom (.vec 0 (some 0))))) ∧
    L''.Built exW 0 (gensOf exW (stdAtoms exW fun k g => trivialAtom _ _) rotLies fun _ => []) solve (.key (.fac (.atom (.vec 0 (some 0))))) s ∧
    L.Computes exW s (.key (.fac (.atom (.vec 0 (some 0))))) (fun x => zipWith (· + ·) (x.take 3) (x.drop 3)) := by
  obtain ⟨sv, h1, h2⟩ := exists_solver ℝ
  have hW := exW_single 0 81 (by decide)
  have hr : (Rep.key (.fac (.atom (.vec 0 (some 0))))).Over exW 0 81 := exV_over
  have hst := World.Single.st hW (Rep.keys exW (.key (.fac (.atom (.vec 0 (some 0))))) ++ Rep.keys exW (.key (.fac (.atom (.vec 0 (some 0)))))) fun k hk =>
    (mem_append.1 hk).elim (hr.key k) (hr.key k)
  obtain ⟨s, hs, -⟩ := Rep.add_spec hr.wf hr.wf hst
  obtain ⟨so, sm⟩ := sum_over (custom := fun k g => trivialAtom _ _) hW hr hr hs
  have hsz : s.size exW = 6 := sm.size
  have hv : Rep.size exW (.key (.fac (.atom (.vec 0 (some 0))))) = 3 := rfl
  have hσ : NetReach exW 0 (gensOf exW (stdAtoms exW fun k g => trivialAtom _ _) rotLies fun _ => []) (fun _ => sv) ⟨freshSt, none, 0⟩ := .start none 0 fun h e => by simp at e
  have build : ∀ {a o : Rep}, a.Over exW 0 81 → o.Over exW 0 81 → o.size exW * a.size exW ≤ 81 → ∃ L : LinearL ℝ, L.Built exW 0 (gensOf exW (stdAtoms exW fun k g => trivialAtom _ _) rotLies fun _ => []) (fun _ => sv) a o := fun ha ho hn => by
    obtain ⟨L, τ, e⟩ := (C30_linear hW rot_groups (h1 _ _) hσ ha ho hn).2 (fun _ _ C _ => h2 C)
    exact ⟨L, _, _, hσ, e⟩
  obtain ⟨L, b1⟩ := build so hr (by rw [hsz, hv]; decide)
  obtain ⟨L', b2⟩ := build hr hr (by rw [hv]; decide)
  obtain ⟨L'', b3⟩ := build hr so (by rw [hsz, hv]; decide)
  have i := C135_identity hW rot_groups (h1 _ _) hr (by rw [hv]; decide) b2
  refine ⟨_, s, L, L', L'', hW, rot_groups, h1 _ _, hr, hs, hsz, by rw [hsz]; decide, b1, b2, b3,
    (C135_inputs hW rot_groups (h1 _ _) hr hr hr hs (by rw [hsz, hv]; decide) b1 b2 b2 _).2 ⟨_, _, i, i, fun x y hx hy => ?_⟩⟩
  have hx' : x.length = 3 := hx
  rw [take_left' hx', drop_left' hx']

end Verif
