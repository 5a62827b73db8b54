import Verif.Lemmas.RShift
import Verif.Lemmas.CanonForm
import Verif.Lemmas.MulVec
import Verif.Model.RepCall
import Verif.Props.ExampleInterp

/-!
# Properties of the representation algebra

`W : World` is the environment: the groups, the values of Python's `hash`, the iteration order of sets and the
behaviour of `sorted` are arbitrary.  `Interp R` carries the matrices of a group element (or Lie algebra element) on
the atoms, over an arbitrary commutative ring.
-/
namespace Verif
open List

variable {W : World} {g : Gid} {N : ℕ}

/-! ### C01 -/

/-- **C01.** A direct sum of any representations keeps the coordinates in the order the summands were
written: on the concatenation of vectors `v₁,…,vₖ`, `rho` and `drho` act block by block. -/
theorem C01_sum_keeps_order {ops : List Rep} (hne : ops ≠ []) (h : ∀ r ∈ ops, r.WF W)
    (hst : StrictTotalOn (Key.lt W) (ops.flatMap (Rep.keys W))) :
    ∃ s, mkSum W ops none = .ok s ∧ s.size W = (ops.map (Rep.size W)).sum ∧
      ∀ (R : Type) [CommRing R] (I : Interp R), I.Sized W → ∀ parts : List (Rep × List R), parts.map Prod.fst = ops →
        (∀ p ∈ parts, p.2.length = p.1.size W) →
        (s.rho I).sem.mulVec (parts.flatMap Prod.snd) = (parts.flatMap fun p => (p.1.mat I).mulVec p.2) ∧
        (s.drho I).sem.mulVec (parts.flatMap Prod.snd) = parts.flatMap fun p => (p.1.dmat I).mulVec p.2 := by
  obtain ⟨s, hs, hwf, hsz, -, -, hm⟩ := mkSum_spec_none hne h hst
  refine ⟨s, hs, hsz, fun R _ I hI parts hp hl => ?_⟩
  have hw : ∀ p ∈ parts, p.1.WF W := fun p hp' => h _ (hp ▸ mem_map_of_mem (f := Prod.fst) hp')
  constructor
  · rw [hm R I hI, ← hp, map_map]
    refine DMat.mulVec_bdiag parts (fun p => p.1.mat I) _ fun p hp' => ?_
    rw [hl p hp', (Rep.mat_sq hI (hw p hp')).2]
  · have hd : Rep.dmat I (.sum s) = DMat.bdiag (ops.map (Rep.dmat I)) := Rep.dmat_bdiag hI (r := .sum s) hwf h (hm _ _ hI.eps)
    have hd' : (s.drho I).sem = _ := hd
    rw [hd', ← hp, map_map]
    refine DMat.mulVec_bdiag parts (fun p => p.1.dmat I) _ fun p hp' => ?_
    rw [hl p hp', (Rep.dmat_sq hI (hw p hp')).2]

/-- Two summands, `a + b`. -/
theorem C01_add {a b : Rep} (ha : a.WF W) (hb : b.WF W) (hst : StrictTotalOn (Key.lt W) (a.keys W ++ b.keys W)) :
    ∃ r, Rep.add W a b = .ok r ∧ r.size W = a.size W + b.size W ∧
      ∀ (R : Type) [CommRing R] (I : Interp R), I.Sized W → ∀ v w : List R, v.length = a.size W → w.length = b.size W →
        (r.mat I).mulVec (v ++ w) = (a.mat I).mulVec v ++ (b.mat I).mulVec w ∧
        (r.dmat I).mulVec (v ++ w) = (a.dmat I).mulVec v ++ (b.dmat I).mulVec w := by
  obtain ⟨s, hs, hsz, hm⟩ := C01_sum_keeps_order (W := W) (ops := [a, b]) (by simp) (by simp [ha, hb]) (by simpa using hst)
  refine ⟨.sum s, ?_, by simpa [Rep.size] using hsz, fun R _ I hI v w hv hw => ?_⟩
  · simp [Rep.add, ha.concrete, hb.concrete, hs, bind, Except.bind]
  · simpa [Rep.mat, Rep.dmat] using hm R I hI [(a, v), (b, w)] rfl (by simp [hv, hw])

/-- `V + V.T` for a group that is not orthogonal: the hypotheses hold. -/
example : ∃ r, Rep.add exW (.key (.atom (.vec 0 (some 1)))) (.key (.atom (.dual 0 (some 1)))) = .ok r ∧ r.size exW = 4 ∧
    ∀ v w : List ℤ, v.length = 2 → w.length = 2 → (r.mat (exI 5)).mulVec (v ++ w) =
      (mat2 1 5 0 1).mulVec v ++ (mat2 1 0 (-5) 1).mulVec w := by
  obtain ⟨r, h, hs, hm⟩ := C01_add (W := exW) (a := .key (.atom (.vec 0 (some 1)))) (b := .key (.atom (.dual 0 (some 1))))
    rfl rfl (World.Single.st (exW_single 1 2 (by omega)) _ (by
      simp [Rep.keys, Key.base, Fac.base, World.Single, World.Letter, Key.size, Fac.size, Atom.size, World.asize, exW]))
  exact ⟨r, h, hs, fun v w hv hw => (hm ℤ _ (exI_dual 5).toSized v w hv hw).1⟩

/-! ### C02, C03 -/

/-- **C02.** The product of two representations of one group, each an atom, a dual or a tensor product of
such with any internal ordering, is the Kronecker product in row-major coordinates; `drho` is the Kronecker sum. -/
theorem C02_product_is_kron {a b : Fac} (ha : a.WF W) (hb : b.WF W) (hg : a.G = some g) (hg' : b.G = some g)
    (hst : StrictTotalOn (Atom.lt W) (a.letters ++ b.letters)) :
    ∃ r, Rep.mul W (.key (.fac a)) (.key (.fac b)) = .ok r ∧ r.size W = a.size W * b.size W ∧
      ∀ (R : Type) [CommRing R] (I : Interp R), I.Sized W →
        r.mat I = DMat.kron (a.rho I).sem (b.rho I).sem ∧ r.dmat I = DMat.kronsum (a.drho I).sem (b.drho I).sem := by
  have hst' : StrictTotalOn (Atom.lt W) ([a, b].flatMap fun f => f.counter.keys) := by
    refine hst.mono fun x hx => ?_
    have key : ∀ f : Fac, f.WF W → x ∈ f.counter.keys → x ∈ f.letters := by
      intro f hf hx
      obtain ⟨kc, hkc, rfl⟩ := mem_map.1 hx
      rw [Fac.letters_eq, Counter.expand, mem_flatMap]
      exact ⟨kc, hkc, mem_replicate.2 ⟨Fac.counter_pos hf _ hkc, rfl⟩⟩
    simp only [flatMap_cons, flatMap_nil, append_nil, mem_append] at hx ⊢
    exact hx.imp (key a ha) (key b hb)
  obtain ⟨p, hp, hwf, -, hsz, -, -, hm⟩ := mkProd_spec_none (ops := [a, b]) (by simp) (by simp [ha, hb])
    (g := g) (by simp [hg, hg']) hst'
  refine ⟨.key (.fac (.prod p)), ?_, by simpa [Rep.size, Key.size, Fac.size] using hsz, fun R _ I hI => ?_⟩
  · have c1 : Key.concrete (.fac a) = true := Rep.WF.concrete (r := .key (.fac a)) ha
    have c2 : Key.concrete (.fac b) = true := Rep.WF.concrete (r := .key (.fac b)) hb
    simp [Rep.mul, c1, c2, Key.mul, hg, hg', hp, bind, Except.bind]
  · have h1 : ∀ (S : Type) [CommRing S] (J : Interp S), J.Sized W →
        (p.rho J).sem = DMat.kron (a.rho J).sem (b.rho J).sem := by
      intro S _ J hJ
      have := hm S J hJ
      simpa [DMat.kronL, DMat.kron_one] using this
    exact ⟨h1 R I hI, Rep.dmat_kron hI (r := .key (.fac (.prod p))) (a := .key (.fac a)) (b := .key (.fac b)) hwf ha hb
      (h1 _ _ hI.eps)⟩

/-- `V.T * V` (the canonical order is `V`, `V.T`, so the factors are swapped internally). -/
example : ∃ r, Rep.mul exW (.key (.atom (.dual 0 (some 1)))) (.key (.atom (.vec 0 (some 1)))) = .ok r ∧ r.size exW = 4 ∧
    r.mat (exI 5) = DMat.kron (mat2 1 0 (-5) 1) (mat2 1 5 0 1) := by
  have hst : StrictTotalOn (Atom.lt exW) [.dual 0 (some 1), .vec 0 (some 1)] :=
    ⟨by decide +kernel, by decide +kernel, by decide +kernel⟩
  obtain ⟨r, h, hs, hm⟩ := C02_product_is_kron (W := exW) (a := .atom (.dual 0 (some 1))) (b := .atom (.vec 0 (some 1)))
    (g := 1) rfl rfl rfl rfl hst
  exact ⟨r, h, hs, (hm ℤ _ (exI_dual 5).toSized).1⟩

/-- **C02, n-ary.** -/
theorem C02_product_list {ops : List Fac} (hne : ops ≠ []) (h : ∀ f ∈ ops, f.WF W) (hg : ∀ f ∈ ops, f.G = some g)
    (hst : StrictTotalOn (Atom.lt W) (ops.flatMap Fac.letters)) :
    ∃ p, mkProd W ops none = .ok p ∧ p.size W = (ops.map (Fac.size W)).prod ∧
      ∀ (R : Type) [CommRing R] (I : Interp R), I.Sized W →
        (p.rho I).sem = DMat.kronL (ops.map fun f => (f.rho I).sem) ∧
        (p.drho I).sem = DMat.kronsumL (ops.map fun f => (f.drho I).sem) := by
  have hst' : StrictTotalOn (Atom.lt W) (ops.flatMap fun f => f.counter.keys) := by
    refine hst.mono fun x hx => ?_
    obtain ⟨f, hf, hx⟩ := mem_flatMap.1 hx
    obtain ⟨kc, hkc, rfl⟩ := mem_map.1 hx
    refine mem_flatMap.2 ⟨f, hf, ?_⟩
    rw [Fac.letters_eq, Counter.expand, mem_flatMap]
    exact ⟨kc, hkc, mem_replicate.2 ⟨Fac.counter_pos (h f hf) _ hkc, rfl⟩⟩
  obtain ⟨p, hp, hwf, -, hsz, -, -, hm⟩ := mkProd_spec_none hne h hg hst'
  refine ⟨p, hp, hsz, fun R _ I hI => ⟨hm R I hI, ?_⟩⟩
  have := Rep.dmat_kronL hI (r := .key (.fac (.prod p))) hwf (ops := ops.map fun f => .key (.fac f))
    (by intro r hr; obtain ⟨f, hf, rfl⟩ := mem_map.1 hr; exact h f hf) (by rw [map_map]; exact hm _ _ hI.eps)
  rw [map_map] at this
  exact this

/-- `ProductRep(V.T, V, V.T*V)`: the hypotheses hold. -/
example : ∃ p, mkProd exW [.atom (.dual 0 (some 1)), .atom (.vec 0 (some 1)),
    .prod ⟨[(.vec 0 (some 1), 1), (.dual 0 (some 1), 1)], [0, 2, 1, 3]⟩] none = .ok p ∧ p.size exW = 16 := by
  have hst : StrictTotalOn (Atom.lt exW) [.vec 0 (some 1), .dual 0 (some 1)] :=
    ⟨by decide +kernel, by decide +kernel, by decide +kernel⟩
  have hp : Fac.WF exW (.prod ⟨[(.vec 0 (some 1), 1), (.dual 0 (some 1), 1)], [0, 2, 1, 3]⟩) :=
    ⟨⟨by simp, hst, by simp [Counter.keys]; decide +kernel, by simp⟩, ⟨1, by simp [Counter.keys, Atom.G]⟩, by decide +kernel⟩
  obtain ⟨p, h, hs, -⟩ := C02_product_list (W := exW) (g := 1) (ops := [.atom (.dual 0 (some 1)), .atom (.vec 0 (some 1)),
    .prod ⟨[(.vec 0 (some 1), 1), (.dual 0 (some 1), 1)], [0, 2, 1, 3]⟩]) (by simp)
    (by
      intro f hf
      simp only [mem_cons, not_mem_nil, or_false] at hf
      rcases hf with rfl | rfl | rfl
      exacts [rfl, rfl, hp])
    (by
      intro f hf
      simp only [mem_cons, not_mem_nil, or_false] at hf
      rcases hf with rfl | rfl | rfl <;> rfl)
    (hst.mono (by decide +kernel))
  exact ⟨p, h, hs.trans (by decide +kernel)⟩

/-- **C03.** Products of direct sums (stored as sums of products) denote the Kronecker product of the
operands, in row-major coordinates; `drho` is the Kronecker sum. -/
theorem C03_products_of_sums (hW : W.SingleOK g N) {a b : Rep} (ha : a.WF W) (hb : b.WF W)
    (hka : ∀ k ∈ a.keys W, W.Single g N k) (hkb : ∀ k ∈ b.keys W, W.Single g N k) (hN : a.size W * b.size W ≤ N) :
    ∃ r, Rep.mul W a b = .ok r ∧ r.size W = a.size W * b.size W ∧
      ∀ (R : Type) [CommRing R] (I : Interp R), I.Sized W →
        r.mat I = DMat.kron (a.mat I) (b.mat I) ∧ r.dmat I = DMat.kronsum (a.dmat I) (b.dmat I) := by
  obtain ⟨r, hr, hwf, -, hsz, hm⟩ := Rep.mul_spec hW.keyClass ha hb hka hkb hN
  exact ⟨r, hr, hsz, fun R _ I hI => ⟨hm R I hI, Rep.dmat_kron hI hwf ha hb (hm _ _ hI.eps)⟩⟩

/-! ### C05, C06, C07 -/

/-- **C05.** Whatever expression is evaluated, the stored ordering is a permutation of `0..size-1`, the stored inverse
ordering (`argsort`) is its inverse, and the size is the dimension of the construction. -/
theorem C05_orderings_are_permutations (hW : W.SingleOK g N) (e : Expr) (h : e.OK W g) (hN : e.bound W g ≤ N) :
    ∃ r, e.eval W g = .ok r ∧ r.size W = e.dim W g ∧ ∀ p, r.perm? = some p →
      p ~ range (e.dim W g) ∧ gather p (argsort p) = range (e.dim W g) ∧ gather (argsort p) p = range (e.dim W g) := by
  obtain ⟨r, hr, hwf, -, hsz, -⟩ := e.eval_good hW h hN
  refine ⟨r, hr, hsz, fun p hp => ?_⟩
  have : p ~ range (r.size W) := by
    match r, hwf, hp with
    | .key (.fac (.prod q)), hwf, hp => cases hp; exact PRep.WF.perm hwf
    | .key (.dprod q), hwf, hp => cases hp; exact DRep.WF.perm hwf
    | .sum s, hwf, hp => cases hp; exact SRep.WF.perm hwf
  rw [hsz] at this
  exact ⟨this, gather_argsort this, argsort_gather this⟩

/-- `(V.T + 1)**2 * V`. -/
example : ∃ r, Expr.eval exW 1 (.mul (.pow (.addNat (.dual (.rep 0)) 1) 2) (.rep 0)) = .ok r ∧ r.size exW = 18 ∧
    ∀ p, r.perm? = some p → p ~ range 18 := by
  obtain ⟨r, h, hs, hp⟩ := C05_orderings_are_permutations (exW_single 1 100 (by omega))
    (.mul (.pow (.addNat (.dual (.rep 0)) 1) 2) (.rep 0)) (by simp [Expr.OK, World.asize, exW]) (by simp [Expr.bound, Expr.dim, World.asize, exW])
  have e : Expr.dim exW 1 (.mul (.pow (.addNat (.dual (.rep 0)) 1) 2) (.rep 0)) = 18 := by simp [Expr.dim, World.asize, exW]
  exact ⟨r, h, hs.trans e, fun p h => e ▸ (hp p h).1⟩

/-- **C06.** `canonicalize()` of any well-formed representation returns `(c, p)` with `rho_c = P rho P⁻¹` for
`P` the reindexing `v ↦ v[p]`; `c` is ordered canonically and canonicalising it again changes nothing. -/
theorem C06_canonicalize {r : Rep} (h : r.WF W) :
    ∃ c p, Rep.canon W r = .ok (c, p) ∧ p ~ range (r.size W) ∧ c.size W = r.size W ∧
      (∀ q, c.perm? = some q → q = range (r.size W)) ∧ Rep.canon W c = .ok (c, range (r.size W)) ∧
      ∀ (R : Type) [CommRing R] (I : Interp R), I.Sized W →
        c.mat I = ((DMat.permMat p).mul (r.mat I)).mul (DMat.permMat (argsort p)) := by
  have hp := Rep.permOf_perm h
  have hb : (r.base W).base W = r.base W := by
    match r with
    | .key k => simp [Rep.base, Key.base_base]
    | .sum s => rfl
    | .dsum _ => rfl
    | .dprod _ => rfl
  refine ⟨r.base W, r.permOf W, Rep.canon_wf h, hp, Rep.size_base r, ?_, ?_, ?_⟩
  · intro q hq
    match r, h, hq with
    | .key (.fac (.prod p)), _, hq => cases hq; rfl
    | .key (.dprod p), _, hq => cases hq; rfl
    | .sum s, _, hq => cases hq; rfl
  · rw [Rep.canon_wf (Rep.WF.base h), hb, Rep.permOf_base h fun k _ => Key.permOf_base]
  · intro R _ I hI
    have hs := Rep.mat_sq hI h
    have hl := length_of_perm_range hp
    rw [← Rep.mat_pick_base hI h, DMat.permMat_mul _ _ (by rw [hs.1, hl]) (fun x hx => by rw [hl]; exact lt_of_perm_range hp hx)]
    rw [DMat.mul_permMat (n := r.size W) _ _ (by simp [hs.2]) (hl ▸ argsort_perm _), argsort_argsort hp]
    refine DMat.ext (by simp) (by simp) fun i j hi hj => ?_
    simp only [DMat.pick_rows, DMat.pick_cols] at hi hj
    have hj' : (r.permOf W).getD j 0 < r.size W := lt_of_perm_range hp (getD_mem_of_lt hj)
    rw [DMat.pick_e hi hj, DMat.pick_e (by simpa using hi) hj, DMat.pick_e (by rw [DMat.pick_rows, getD_range hi]; exact hi) (by simpa [hs.2] using hj'),
      DMat.pick_rows, getD_range hi, getD_range (by rw [hs.2]; exact hj')]

/-- `V.T * V` in dimension two, stored as `V`, `V.T` with the ordering `[0,2,1,3]`. -/
theorem exProd_wf : Rep.WF exW (.key (.fac (.prod ⟨[(.vec 0 (some 1), 1), (.dual 0 (some 1), 1)], [0, 2, 1, 3]⟩))) :=
  ⟨⟨by simp, ⟨by decide +kernel, by decide +kernel, by decide +kernel⟩, by simp [Counter.keys]; decide +kernel, by simp⟩,
    ⟨1, by simp [Counter.keys, Atom.G]⟩, by decide +kernel⟩

/-- Its canonical form differs from it. -/
example : ∃ c p, Rep.canon exW (.key (.fac (.prod ⟨[(.vec 0 (some 1), 1), (.dual 0 (some 1), 1)], [0, 2, 1, 3]⟩))) = .ok (c, p) ∧
    c.perm? = some [0, 1, 2, 3] ∧ p = [0, 2, 1, 3] ∧
    c.mat (exI 5) = ((DMat.permMat p).mul (Rep.mat (exI 5) (.key (.fac (.prod ⟨[(.vec 0 (some 1), 1), (.dual 0 (some 1), 1)], [0, 2, 1, 3]⟩))))).mul
      (DMat.permMat (argsort p)) := by
  obtain ⟨c, p, h, -, -, -, -, hm⟩ := C06_canonicalize exProd_wf
  have hc : Rep.canon exW (.key (.fac (.prod ⟨[(.vec 0 (some 1), 1), (.dual 0 (some 1), 1)], [0, 2, 1, 3]⟩))) =
      .ok (.key (.fac (.prod ⟨[(.vec 0 (some 1), 1), (.dual 0 (some 1), 1)], [0, 1, 2, 3]⟩)), [0, 2, 1, 3]) := Rep.canon_wf exProd_wf
  have e := hc.symm.trans h
  simp only [Except.ok.injEq, Prod.mk.injEq] at e
  obtain ⟨rfl, rfl⟩ := e
  exact ⟨_, _, h, rfl, rfl, hm ℤ _ (exI_dual 5).toSized⟩

/-- **C07 (sums).** Two direct sums with the same summands, counted with multiplicity, have the same canonical
form, however they were written (nesting and order). -/
theorem C07_sum_canonical_form {ops ops' : List Rep} (hne : ops ≠ []) (hne' : ops' ≠ []) (h : ∀ r ∈ ops, r.WF W)
    (h' : ∀ r ∈ ops', r.WF W) (hst : StrictTotalOn (Key.lt W) (ops.flatMap (Rep.keys W)))
    (hst' : StrictTotalOn (Key.lt W) (ops'.flatMap (Rep.keys W)))
    (hp : ops.flatMap (Rep.summands W) ~ ops'.flatMap (Rep.summands W)) :
    ∃ s s' c p p', mkSum W ops none = .ok s ∧ mkSum W ops' none = .ok s' ∧
      Rep.canon W (.sum s) = .ok (c, p) ∧ Rep.canon W (.sum s') = .ok (c, p') := by
  obtain ⟨s, hs, hwf, -, -, hc, -⟩ := mkSum_spec_none hne h hst
  obtain ⟨s', hs', hwf', -, -, hc', -⟩ := mkSum_spec_none hne' h' hst'
  have he : s.c = s'.c := hwf.ext hwf' ((mkSum_expand h hc).trans (hp.trans (mkSum_expand h' hc').symm))
  refine ⟨s, s', _, _, s'.perm, hs, hs', rfl, ?_⟩
  simp [Rep.canon, he]

/-- **C07 (products).** Two tensor products with the same factors, counted with multiplicity, have the same
canonical form. -/
theorem C07_product_canonical_form {ops ops' : List Fac} (hne : ops ≠ []) (hne' : ops' ≠ []) (h : ∀ r ∈ ops, r.WF W)
    (h' : ∀ r ∈ ops', r.WF W) (hg : ∀ f ∈ ops, f.G = some g) (hg' : ∀ f ∈ ops', f.G = some g)
    (hst : StrictTotalOn (Atom.lt W) (ops.flatMap fun f => f.counter.keys))
    (hst' : StrictTotalOn (Atom.lt W) (ops'.flatMap fun f => f.counter.keys))
    (hp : ops.flatMap Fac.letters ~ ops'.flatMap Fac.letters) :
    ∃ q q' c p p', mkProd W ops none = .ok q ∧ mkProd W ops' none = .ok q' ∧
      Key.canon W (.fac (.prod q)) = .ok (c, p) ∧ Key.canon W (.fac (.prod q')) = .ok (c, p') := by
  obtain ⟨q, hq, hwf, -, -, -, hc, -⟩ := mkProd_spec_none hne h hg hst
  obtain ⟨q', hq', hwf', -, -, -, hc', -⟩ := mkProd_spec_none hne' h' hg' hst'
  have he : q.c = q'.c := hwf.ext hwf' ((mkProd_expand h hc).trans (hp.trans (mkProd_expand h' hc').symm))
  refine ⟨q, q', _, _, q'.perm, hq, hq', Key.canon_wf (k := .fac (.prod q)) hwf, ?_⟩
  rw [Key.canon_wf (k := .fac (.prod q')) hwf']
  simp [Key.base, Fac.base, PRep.size, he, Key.permOf, Fac.permOf]

/-- `V + V.T` and `V.T + V`; `V * V.T` and `V.T * V`. -/
example : (∃ s s' c p p', mkSum exW [.key (.atom (.vec 0 (some 1))), .key (.atom (.dual 0 (some 1)))] none = .ok s ∧
      mkSum exW [.key (.atom (.dual 0 (some 1))), .key (.atom (.vec 0 (some 1)))] none = .ok s' ∧
      Rep.canon exW (.sum s) = .ok (c, p) ∧ Rep.canon exW (.sum s') = .ok (c, p')) ∧
    ∃ q q' c p p', mkProd exW [.atom (.vec 0 (some 1)), .atom (.dual 0 (some 1))] none = .ok q ∧
      mkProd exW [.atom (.dual 0 (some 1)), .atom (.vec 0 (some 1))] none = .ok q' ∧
      Key.canon exW (.fac (.prod q)) = .ok (c, p) ∧ Key.canon exW (.fac (.prod q')) = .ok (c, p') := by
  have hst : StrictTotalOn (Atom.lt exW) [.vec 0 (some 1), .dual 0 (some 1)] :=
    ⟨by decide +kernel, by decide +kernel, by decide +kernel⟩
  have hst' : StrictTotalOn (Key.lt exW) [.atom (.vec 0 (some 1)), .atom (.dual 0 (some 1))] :=
    ⟨by decide +kernel, by decide +kernel, by decide +kernel⟩
  constructor
  · exact C07_sum_canonical_form (by simp) (by simp) (by
      intro r hr
      simp only [mem_cons, not_mem_nil, or_false] at hr
      rcases hr with rfl | rfl <;> rfl) (by
      intro r hr
      simp only [mem_cons, not_mem_nil, or_false] at hr
      rcases hr with rfl | rfl <;> rfl) hst' (hst'.mono (by decide +kernel)) (Perm.swap _ _ _)
  · exact C07_product_canonical_form (g := 1) (by simp) (by simp) (by
      intro r hr
      simp only [mem_cons, not_mem_nil, or_false] at hr
      rcases hr with rfl | rfl <;> rfl) (by
      intro r hr
      simp only [mem_cons, not_mem_nil, or_false] at hr
      rcases hr with rfl | rfl <;> rfl) (by
      intro r hr
      simp only [mem_cons, not_mem_nil, or_false] at hr
      rcases hr with rfl | rfl <;> rfl) (by
      intro r hr
      simp only [mem_cons, not_mem_nil, or_false] at hr
      rcases hr with rfl | rfl <;> rfl) hst (hst.mono (by decide +kernel)) (Perm.swap _ _ _)

/-! ### C08, C09 -/

/-- **C08.** `rep.T` is the inverse transpose, in the same coordinates, and on the Lie algebra minus the
transpose.  (`Interp.Dual`: for groups flagged orthogonal, where `V.T` is `V`, the matrices are orthogonal.) -/
theorem C08_dual (hW : W.SingleOK g N) {r : Rep} (h : r.WF W) (hk : ∀ k ∈ r.keys W, W.Single g N k) :
    ∃ t, Rep.T W r = .ok t ∧ t.size W = r.size W ∧
      (∀ (R : Type) [CommRing R] (I : Interp R), I.Dual W →
        (t.mat I).transpose.mul (r.mat I) = DMat.one (r.size W) ∧ (r.mat I).mul (t.mat I).transpose = DMat.one (r.size W)) ∧
      ∀ (R : Type) [CommRing R] (I : Interp R), I.DDual W → t.dmat I = (r.dmat I).transpose.neg := by
  obtain ⟨t, ht, hwf, -, hsz, hm⟩ := Rep.T_spec hW.keyClass (World.Single.dual hW) h hk
  refine ⟨t, ht, hsz, fun R _ I hI => ⟨hm R I hI, ?_⟩, fun R _ I hI => ?_⟩
  · have s1 := Rep.mat_sq hI.toSized hwf
    have s2 := Rep.mat_sq hI.toSized h
    exact DMat.mul_eq_one_comm (n := r.size W) ⟨by rw [DMat.transpose_rows, s1.2, hsz], by rw [DMat.transpose_cols, s1.1, hsz]⟩ s2 (hm R I hI)
  · exact Rep.dmat_dual hI.sized h hwf hsz (hm _ _ hI.eps)

/-- **C09.** `a >> b` acts on the row-major flattening of a matrix `M` (of shape `size b × size a`) as
`M ↦ rho_b M rho_a⁻¹`, so `vec(M)` is invariant exactly when `M` intertwines; `b << a` is the same representation. -/
theorem C09_linear_maps_row_major (hW : W.SingleOK g N) {a b : Rep} (ha : a.WF W) (hb : b.WF W)
    (hka : ∀ k ∈ a.keys W, W.Single g N k) (hkb : ∀ k ∈ b.keys W, W.Single g N k) (hN : b.size W * a.size W ≤ N) :
    ∃ r, Rep.rshift W a b = .ok r ∧ Rep.lshift W b a = .ok r ∧ r.size W = b.size W * a.size W ∧
      ∀ (R : Type) [CommRing R] (I : Interp R), I.Dual W → ∀ M : DMat R, M.rows = b.size W → M.cols = a.size W →
        (∃ X : DMat R, X.IsSq (a.size W) ∧ X.mul (a.mat I) = DMat.one (a.size W) ∧
          (r.mat I).mulVec M.flat = (((b.mat I).mul M).mul X).flat) ∧
        ((r.mat I).mulVec M.flat = M.flat ↔ M.mul (a.mat I) = (b.mat I).mul M) := by
  obtain ⟨r, h1, h2, -, -, h3, h4⟩ := Rep.rshift_spec hW ha hb hka hkb hN
  exact ⟨r, h1, h2, h3, h4⟩

/-- `V + 1 >> V` for a group that is not orthogonal satisfies the hypotheses of **C03**, **C08** and **C09**. -/
example : ∃ a r, Expr.eval exW 1 (.addNat (.rep 0) 1) = .ok a ∧ Rep.rshift exW a (.key (.atom (.vec 0 (some 1)))) = .ok r ∧
    r.size exW = 6 := by
  have hW := exW_single 1 100 (by omega)
  obtain ⟨a, ha, hwf, hk, hsz, -⟩ := Expr.eval_good hW (.addNat (.rep 0) 1) (by simp [Expr.OK, World.asize, exW])
    (by simp [Expr.bound, World.asize, exW])
  have hs : a.size exW = 3 := by rw [hsz]; rfl
  have hb : ∀ k ∈ (Rep.key (.atom (.vec 0 (some 1)))).keys exW, exW.Single 1 100 k := by
    simp [Rep.keys, Key.base, Fac.base, World.Single, World.Letter, Key.size, Fac.size, Atom.size, World.asize, exW]
  have hz : (Rep.key (.atom (.vec 0 (some 1)))).size exW = 2 := rfl
  obtain ⟨r, hr, -, hr', -⟩ := C09_linear_maps_row_major hW (a := a) (b := .key (.atom (.vec 0 (some 1)))) hwf rfl hk hb
    (by rw [hs, hz]; omega)
  exact ⟨a, r, ha, hr, by rw [hr', hs, hz]⟩

/-! ### C10, C11 -/

/-- **C10.** Any expression over one group evaluates without error to a representation of the expected size whose
`rho` is the textbook construction `Expr.den` and whose `drho` is `Expr.dden`. -/
theorem C10_expressions_denote (hW : W.SingleOK g N) (e : Expr) (h : e.OK W g) (hN : e.bound W g ≤ N) :
    ∃ r, e.eval W g = .ok r ∧ r.size W = e.dim W g ∧
      (∀ (R : Type) [CommRing R] (I : Interp R), I.Dual W → ∃ L, r.rho I = .ok L ∧ L.sem = (e.den g I).1) ∧
      ∀ (R : Type) [CommRing R] (I : Interp R), I.DDual W → ∃ L, r.drho I = .ok L ∧ L.sem = (e.dden g I).1 := by
  obtain ⟨r, hr, hwf, -, hsz, hm⟩ := e.eval_good hW h hN
  refine ⟨r, hr, hsz, fun R _ I hI => ?_, fun R _ I hI => ?_⟩
  · obtain ⟨L, hL, hLm⟩ := Rep.rho_wf (I := I) hwf
    exact ⟨L, hL, hLm.trans (hm R I hI)⟩
  · have := e.eval_drho hW h hN hr hI
    match r, hwf, this with
    | .key k, _, this => exact ⟨_, rfl, this⟩
    | .sum s, _, this => exact ⟨_, rfl, this⟩

/-- The expression `(2*V + 1).T**2 * V >> V + V.T`, on a group that is not orthogonal. -/
example : ∃ r, Expr.eval exW 1 (.rshift (.mul (.pow (.dual (.addNat (.nsmul 2 (.rep 0)) 1)) 2) (.rep 0))
    (.add (.rep 0) (.dual (.rep 0)))) = .ok r ∧ r.size exW = 200 := by
  obtain ⟨r, h, hs, -⟩ := C10_expressions_denote (exW_single 1 1000 (by omega))
    (.rshift (.mul (.pow (.dual (.addNat (.nsmul 2 (.rep 0)) 1)) 2) (.rep 0)) (.add (.rep 0) (.dual (.rep 0))))
    (by simp [Expr.OK, World.asize, exW]) (by simp [Expr.bound, Expr.dim, World.asize, exW])
  exact ⟨r, h, hs.trans (by simp [Expr.dim, World.asize, exW])⟩

/-- **C11.** For any representation the operators produce: `rho` is multiplicative, sends the identity to
the identity, and `drho` is linear and respects brackets.  `K`, `I`, `J` carry the matrices of the group elements
`MN`, `M`, `N` on the atoms (respectively of `aA+bB` or `[A,B]`, `A`, `B`). -/
theorem C11_homomorphism {r : Rep} (h : r.WF W) {R : Type} [CommRing R] {K I J : Interp R} :
    (I.Dual W → (∀ k g, (I.vec k (some g)).sem = DMat.one (W.asize k g)) → r.mat I = DMat.one (r.size W)) ∧
    (K.Dual W → I.Dual W → J.Dual W →
      (∀ k g, (K.vec k (some g)).sem = (I.vec k (some g)).sem.mul (J.vec k (some g)).sem) →
      r.mat K = (r.mat I).mul (r.mat J)) ∧
    (∀ a b : R, K.DDual W → I.DDual W → J.DDual W →
      (∀ k g, (K.vec k (some g)).sem = (DMat.smul a (I.vec k (some g)).sem).add (DMat.smul b (J.vec k (some g)).sem)) →
      r.dmat K = (DMat.smul a (r.dmat I)).add (DMat.smul b (r.dmat J))) ∧
    (K.DDual W → I.DDual W → J.DDual W →
      (∀ k g, (K.vec k (some g)).sem = ((I.vec k (some g)).sem.mul (J.vec k (some g)).sem).add
        ((J.vec k (some g)).sem.mul (I.vec k (some g)).sem).neg) →
      r.dmat K = ((r.dmat I).mul (r.dmat J)).add ((r.dmat J).mul (r.dmat I)).neg) := by
  refine ⟨fun hI h1 => ?_, fun hK hI hJ hm => ?_, fun a b hK hI hJ hm => ?_, fun hK hI hJ hm => ?_⟩
  · refine Rep.mat_one ⟨h1, fun k g => ?_⟩ h
    have h2 := hI.inv k g
    rw [h1, DMat.mul_one' _ (by rw [DMat.transpose_cols]; exact (hI.dual k g).1)] at h2
    have := congrArg DMat.transpose h2
    rwa [DMat.transpose_one, DMat.transpose_transpose] at this
  · exact Rep.mat_mul hI.toSized hJ.toSized (Interp.IsMul.of_dual hK hI hJ hm) h
  · exact Rep.dmat_op (DMat.lin_compat a b) hI.sized hJ.sized (Interp.Is.of_lin hK hI hJ hm) h
  · exact Rep.dmat_op DMat.bracket_compat hI.sized hJ.sized (Interp.Is.of_bracket hK hI hJ hm) h

/-- The operators produce well-formed representations, so **C11** (and **C06**) apply to every expression. -/
theorem C11_expressions_wf (hW : W.SingleOK g N) (e : Expr) (h : e.OK W g) (hN : e.bound W g ≤ N) :
    ∃ r, e.eval W g = .ok r ∧ r.WF W ∧ ∀ k ∈ r.keys W, W.Single g N k := by
  obtain ⟨r, hr, hwf, hk, -⟩ := e.eval_good hW h hN
  exact ⟨r, hr, hwf, hk⟩

/-- Shears compose, so the hypotheses of **C11** are satisfied by three different group elements. -/
example (x y : ℤ) (k : ℕ) (g : Gid) : ((exI (x + y)).vec k (some g)).sem = ((exI x).vec k (some g)).sem.mul ((exI y).vec k (some g)).sem := by
  by_cases h : k = 0 ∧ g = 1
  · simp only [exI, LinOp.sem, h, and_self, if_true]
    refine DMat.ext rfl rfl fun i j hi hj => ?_
    change i < 2 at hi
    change j < 2 at hj
    rw [DMat.mul_e hi hj]
    interval_cases i <;> interval_cases j <;> simp [mat2, DMat.of, Finset.sum_range_succ, add_comm]
  · simp only [exI, LinOp.sem, Option.some.injEq, h, if_false]
    exact (DMat.one_mul' (DMat.one _) rfl).symm

/-! ### C14, C15, C16 -/

/-- **C14 (sums).** A direct sum's `canonical` flag is `True` exactly when reindexing by `perm` is the identity. -/
theorem C14_sum_canonical_iff {s : SRep} (h : s.WF W) :
    s.canonical = true ↔ ∀ v : List ℕ, v.length = s.size W → gather v s.perm = v := by
  have hl := length_of_perm_range h.perm
  constructor
  · intro hc v hv
    have : s.perm = range s.perm.length := by simpa [SRep.canonical] using hc
    rw [this, hl, ← hv, gather_range]
  · intro hv
    have := hv (range (s.size W)) (by simp)
    rw [range_gather fun x hx => lt_of_perm_range h.perm hx] at this
    simp [SRep.canonical, this]

/-- `V + V.T` written the other way round: `V.T + V`. -/
example : SRep.canonical ⟨[(.atom (.vec 0 (some 1)), 1), (.atom (.dual 0 (some 1)), 1)], [2, 3, 0, 1]⟩ = false ∧
    ∃ v : List ℕ, v.length = 4 ∧ gather v [2, 3, 0, 1] ≠ v := by
  have hwf : SRep.WF exW ⟨[(.atom (.vec 0 (some 1)), 1), (.atom (.dual 0 (some 1)), 1)], [2, 3, 0, 1]⟩ :=
    ⟨⟨by simp, ⟨by decide +kernel, by decide +kernel, by decide +kernel⟩, by simp [Counter.keys]; decide +kernel, by simp⟩, by
      intro k hk
      simp only [Counter.keys, map_cons, map_nil, mem_cons, not_mem_nil, or_false] at hk
      rcases hk with rfl | rfl <;> exact ⟨rfl, rfl⟩, by decide +kernel⟩
  have := C14_sum_canonical_iff hwf
  have h1 : SRep.canonical ⟨[(.atom (.vec 0 (some 1)), 1), (.atom (.dual 0 (some 1)), 1)], [2, 3, 0, 1]⟩ = false := by decide +kernel
  refine ⟨h1, ?_⟩
  by_contra hcon
  push Not at hcon
  rw [this.2 fun v hv => hcon v hv] at h1
  exact absurd h1 (by simp)

/-- **C14 (products).** A product's `canonical` flag is `True` exactly when applying the reindexing twice is the
identity. -/
theorem C14_product_canonical_iff_partial {n : ℕ} {perm : List ℕ} (h : perm ~ range n) :
    permCanonical perm = true ↔ ∀ v : List ℕ, v.length = n → gather (gather v perm) perm = v := by
  have hl := length_of_perm_range h
  have hlt : ∀ x ∈ perm, x < perm.length := fun x hx => hl ▸ lt_of_perm_range h hx
  constructor
  · intro hc v hv
    have e : argsort perm = perm := (eq_of_beq hc).symm
    rw [← gather_gather hlt]
    have := gather_argsort h
    rw [e] at this
    rw [this, ← hv, gather_range]
  · intro hv
    have := hv (range n) (by simp)
    rw [range_gather fun x hx => lt_of_perm_range h hx] at this
    have e := argsort_eq h (fun x hx => lt_of_perm_range h hx) this
    simp [permCanonical, e]

/-- **C14 fails for products.**  `V.T * V` on a two-dimensional group that is not orthogonal has the ordering
`[0,2,1,3]`, which moves coordinates, and yet is flagged canonical. -/
theorem C14_product_canonical_counterexample :
    ∃ p, mkProd exW [.atom (.dual 0 (some 1)), .atom (.vec 0 (some 1))] none = .ok p ∧
      permCanonical p.perm = true ∧ gather [10, 11, 12, 13] p.perm ≠ [10, 11, 12, 13] :=
  ⟨⟨[(.vec 0 (some 1), 1), (.dual 0 (some 1), 1)], [0, 2, 1, 3]⟩, by decide +kernel, by decide +kernel, by decide +kernel⟩

/-- **C15 (partial).** The comparison used for sorting is a strict total order on the canonical summands of one group.
Full statement: for summands of any groups.  That is false (`C15_counterexample_cycle`, `C15_counterexample_both`); see
`World.MultiOK.keyClass` for sets of summands over several groups for which it holds. -/
theorem C15_lt_strict_total_partial (hW : W.SingleOK g N) (l : List Key) (h : ∀ k ∈ l, W.Single g N k) :
    StrictTotalOn (Key.lt W) l := World.Single.st hW l h

/-- **C15.** Direct sums that compare equal (`__eq__`: equal dicts, irrespective of insertion order, and equal
orderings) are the same object up to identity, in particular they have equal hashes (the hash depends on the
insertion order). -/
theorem C15_eq_sum {s t : SRep} (hs : s.WF W) (ht : t.WF W) (h : ∀ k, s.c.get k = t.c.get k) (hp : s.perm = t.perm) : s = t := by
  have := hs.cnt.ext ht.cnt h
  cases s; cases t; simp_all

/-- **C15.** The same for tensor products. -/
theorem C15_eq_product {p q : PRep} (hs : p.WF W) (ht : q.WF W) (h : ∀ k, p.c.get k = q.c.get k) (hp : p.perm = q.perm) : p = q := by
  have := hs.cnt.ext ht.cnt h
  cases p; cases q; simp_all

/-- `Scalar`, `V`, `V.T`, `V*V` of a group that is not orthogonal, and two equal sums. -/
example : StrictTotalOn (Key.lt exW) [.scalar, .atom (.vec 0 (some 1)), .atom (.dual 0 (some 1)), .fac (.prod ⟨[(.vec 0 (some 1), 2)], range 4⟩)] := by
  refine C15_lt_strict_total_partial (exW_single 1 4 (by omega)) _ ?_
  intro k hk
  simp only [mem_cons, not_mem_nil, or_false] at hk
  rcases hk with rfl | rfl | rfl | rfl
  · exact ⟨by decide +kernel, trivial⟩
  · simp [World.Single, World.Letter, Key.size, Fac.size, Atom.size, World.asize, exW]
  · simp [World.Single, World.Letter, Key.size, Fac.size, Atom.size, World.asize, exW]
  · refine ⟨by decide +kernel, ⟨⟨by simp, ⟨by decide +kernel, by decide +kernel, by decide +kernel⟩, by simp [Counter.keys], by simp⟩,
      ⟨1, by simp [Counter.keys, Atom.G]⟩, Perm.refl _⟩, by decide +kernel, ?_, by decide +kernel, by decide +kernel⟩
    intro a ha
    simp only [Counter.keys, map_cons, map_nil, mem_singleton] at ha
    subst ha
    exact ⟨Or.inr ⟨rfl, Or.inl rfl⟩, by decide +kernel⟩

/-- **C16.** Integers: `rep + n` appends and `n + rep` prepends `n` scalar coordinates. -/
theorem C16_add_int (hW : W.SingleOK g N) {a : Rep} (ha : a.WF W) (hk : ∀ k ∈ a.keys W, W.Single g N k) (n : ℕ) :
    (∃ r, Rep.addInt W a n false = .ok r ∧ r.size W = a.size W + n ∧
      ∀ (R : Type) [CommRing R] (I : Interp R), I.Sized W → ∀ v w : List R, v.length = a.size W → w.length = n →
        (r.mat I).mulVec (v ++ w) = (a.mat I).mulVec v ++ w) ∧
    (∃ r, Rep.addInt W a n true = .ok r ∧ r.size W = a.size W + n ∧
      ∀ (R : Type) [CommRing R] (I : Interp R), I.Sized W → ∀ v w : List R, v.length = a.size W → w.length = n →
        (r.mat I).mulVec (w ++ v) = w ++ (a.mat I).mulVec v) ∧
    Rep.addInt W a 0 false = .ok a ∧ Rep.addInt W a 0 true = .ok a := by
  have hsc : W.Single g N .scalar := ⟨hW.pos, trivial⟩
  refine ⟨?_, ?_, rfl, rfl⟩
  · obtain ⟨r, hr, -, -, hz, hm⟩ := Rep.addInt_spec hW.keyClass hsc ha hk n false
    refine ⟨r, hr, hz, fun R _ I hI v w hv hw => ?_⟩
    rw [hm R I hI]
    have := DMat.mulVec_bdiag [(a.mat I, v), (DMat.one n, w)] Prod.fst Prod.snd (by simp [hv, hw, (Rep.mat_sq hI ha).2])
    simpa [DMat.mulVec_one w hw] using this
  · obtain ⟨r, hr, -, -, hz, hm⟩ := Rep.addInt_spec hW.keyClass hsc ha hk n true
    refine ⟨r, hr, hz, fun R _ I hI v w hv hw => ?_⟩
    rw [hm R I hI]
    have := DMat.mulVec_bdiag [(DMat.one n, w), (a.mat I, v)] Prod.fst Prod.snd (by simp [hv, hw, (Rep.mat_sq hI ha).2])
    simpa [DMat.mulVec_one w hw] using this

/-- **C16.** `n*rep` is `n` copies, `1*rep` is `rep`, `0*rep` is the integer `0`, and negative multiples of an
instantiated representation are rejected. -/
theorem C16_mul_int (hW : W.SingleOK g N) {a : Rep} (ha : a.WF W) (hk : ∀ k ∈ a.keys W, W.Single g N k) :
    (∀ n : ℕ, 0 < n → ∃ r, Rep.mulInt W a n = .ok (.rep r) ∧ r.size W = n * a.size W ∧
      ∀ (R : Type) [CommRing R] (I : Interp R), I.Sized W → ∀ vs : List (List R), vs.length = n →
        (∀ v ∈ vs, v.length = a.size W) → (r.mat I).mulVec vs.flatten = vs.flatMap fun v => (a.mat I).mulVec v) ∧
    Rep.mulInt W a 1 = .ok (.rep a) ∧ Rep.mulInt W a 0 = .ok (.int 0) ∧
    ∀ z : ℤ, z < 0 → Rep.mulInt W a z = .error .value := by
  refine ⟨fun n hn => ?_, rfl, rfl, fun z hz => ?_⟩
  · obtain ⟨r, hr, -, hz, -, hm⟩ := Rep.mulInt_spec ha (World.Single.st hW _ hk) hn
    refine ⟨r, hr, hz, fun R _ I hI vs hvs hv => ?_⟩
    rw [hm R I hI]
    have := DMat.mulVec_bdiag vs (fun _ => a.mat I) id (by intro v hv'; rw [(Rep.mat_sq hI ha).2]; exact hv v hv')
    rw [map_const', hvs] at this
    simpa [flatMap_id] using this
  · have h1 : z ≠ 1 := by omega
    have h0 : z ≠ 0 := by omega
    have ht : z.toNat = 0 := by omega
    simp [Rep.mulInt, h1, h0, ha.concrete, ht, mkSum, bind, Except.bind, throw, throwThe, MonadExceptOf.throw]

/-- **C16.** Powers: `rep**n` has size `size^n` and is the `n`-fold Kronecker power; `rep**0` is `Scalar`; negative
powers are rejected; `Scalar` is the unit of `*`. -/
theorem C16_pow (hW : W.SingleOK g N) {a : Rep} (ha : a.WF W) (hk : ∀ k ∈ a.keys W, W.Single g N k) :
    (∀ n : ℕ, a.size W ^ n ≤ N → ∃ r, Rep.powZ W a n = .ok r ∧ r.size W = a.size W ^ n ∧
      ∀ (R : Type) [CommRing R] (I : Interp R), I.Sized W → r.mat I = DMat.kronL (replicate n (a.mat I))) ∧
    Rep.powZ W a 0 = .ok (.key .scalar) ∧ (∀ z : ℤ, z < 0 → Rep.powZ W a z = .error .assertion) ∧
    Rep.mul W (.key .scalar) a = .ok a ∧
    (a.size W ≤ N → ∃ r, Rep.mul W a (.key .scalar) = .ok r ∧ r.size W = a.size W ∧
      ∀ (R : Type) [CommRing R] (I : Interp R), I.Sized W → r.mat I = a.mat I) := by
  have hsc : W.Single g N .scalar := ⟨hW.pos, trivial⟩
  refine ⟨fun n hn => ?_, ?_, fun z hz => ?_, ?_, fun hN => ?_⟩
  · obtain ⟨r, hr, -, -, hz, hm⟩ := Rep.pow_spec hW.keyClass hsc ha hk n hn
    exact ⟨r, by simpa [Rep.powZ] using hr, hz, hm⟩
  · rfl
  · simp [Rep.powZ, not_le.2 hz]
  · simp [Rep.mul]
  · obtain ⟨r, hr, -, -, hz, hm⟩ := Rep.mul_spec hW.keyClass ha (b := .key .scalar) trivial hk
      (by simpa [Rep.keys, Key.base] using hsc) (by simpa [Rep.size, Key.size] using hN)
    refine ⟨r, hr, by simpa [Rep.size, Key.size] using hz, fun R _ I hI => ?_⟩
    rw [hm R I hI]
    exact DMat.kron_one _

/-- `V + 2`, `2 + V`, `3*V` and `V**3` of a group that is not orthogonal. -/
example : (∃ r, Rep.addInt exW (.key (.atom (.vec 0 (some 1)))) 2 true = .ok r ∧ r.size exW = 4) ∧
    (∃ r, Rep.mulInt exW (.key (.atom (.vec 0 (some 1)))) 3 = .ok (.rep r) ∧ r.size exW = 6) ∧
    ∃ r, Rep.powZ exW (.key (.atom (.vec 0 (some 1)))) 3 = .ok r ∧ r.size exW = 8 := by
  have hW := exW_single 1 8 (by omega)
  have hk : ∀ k ∈ (Rep.key (.atom (.vec 0 (some 1)))).keys exW, exW.Single 1 8 k := by
    simp [Rep.keys, Key.base, Fac.base, World.Single, World.Letter, Key.size, Fac.size, Atom.size, World.asize, exW]
  have ha : Rep.WF exW (.key (.atom (.vec 0 (some 1)))) := rfl
  obtain ⟨-, ⟨r, h1, h2, -⟩, -⟩ := C16_add_int hW ha hk 2
  obtain ⟨r', h3, h4, -⟩ := (C16_mul_int hW ha hk).1 3 (by omega)
  obtain ⟨r'', h5, h6, -⟩ := (C16_pow hW ha hk).1 3 (by decide +kernel)
  exact ⟨⟨r, h1, h2⟩, ⟨r', h3, h4⟩, ⟨r'', h5, h6⟩⟩

end Verif
