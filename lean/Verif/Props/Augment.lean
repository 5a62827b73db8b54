import Verif.Model.Augment
import Verif.Props.Emlp

/-!
# C39: group augmentation
-/
namespace Verif
open List

theorem inverse_eq {A B : DMat ℝ} {n : ℕ} (hA : A.IsSq n) (hB : B.IsSq n) (h : B.mul A = DMat.one n) : A.inverse = B := by
  have hr := hA.1
  subst hr
  refine DMat.toMatrix_inj (A := A.inverse) (m := A.rows) (n := A.rows) rfl rfl hB.1 hB.2 ?_
  have e : A.inverse.toMatrix A.rows A.rows = (A.toMatrix A.rows A.rows)⁻¹ := by
    ext i j
    show A.inverse.e i j = _
    refine (DMat.of_e i.2 j.2).trans ?_
    rw [dif_pos ⟨i.2, j.2⟩]; rfl
  rw [e]
  apply Matrix.inv_eq_left_inv
  rw [← DMat.toMatrix_mul B A hB.1 hB.2 hA.2, h, DMat.toMatrix_one]

/-- The representations on which `jit(vmap(rep.rho))` works: `Scalar`, `V(G)`, its dual, user-defined ones. -/
def Rep.Simple : Rep → Prop
  | .key .scalar => True
  | .key (.fac (.atom a)) => a.G.isSome
  | _ => False

theorem Rep.Simple.array {W : World} {r : Rep} (hr : r.Simple) {I : Interp ℝ} (hI : I.Dual W) :
    Rep.rhoArray I r = .ok (r.mat I) ∧ (r.mat I).IsSq (r.size W) ∧ (r.mat I).inverse.mul (r.mat I) = DMat.one (r.size W) := by
  match r, hr with
  | .key .scalar, _ =>
    refine ⟨rfl, ⟨rfl, rfl⟩, ?_⟩
    have : (DMat.one 1 : DMat ℝ).inverse = DMat.one 1 := inverse_eq (n := 1) ⟨rfl, rfl⟩ ⟨rfl, rfl⟩ (DMat.one_mul' (n := 1) _ rfl)
    show (DMat.one 1 : DMat ℝ).inverse.mul (DMat.one 1) = DMat.one 1
    rw [this]; exact DMat.one_mul' (n := 1) _ rfl
  | .key (.fac (.atom (.vec k (some g)))), _ =>
    have h1 := hI.vec k g
    have h2 := hI.dual k g
    refine ⟨rfl, h1, ?_⟩
    have := inverse_eq h1 ⟨h2.2, h2.1⟩ (hI.inv k g)
    show (I.vec k (some g)).sem.inverse.mul (I.vec k (some g)).sem = _
    rw [this]; exact hI.inv k g
  | .key (.fac (.atom (.dual k (some g)))), _ =>
    have h1 := hI.vec k g
    have h2 := hI.dual k g
    have h3 : (I.vec k (some g)).sem.transpose.mul (I.dual k (some g)).sem = DMat.one (W.asize k g) := by
      have := congrArg DMat.transpose (hI.inv k g)
      rw [DMat.transpose_mul _ _ (by simp [h1.1, h2.1]), DMat.transpose_transpose, DMat.transpose_one] at this
      exact this
    refine ⟨rfl, h2, ?_⟩
    have := inverse_eq h2 ⟨h1.2, h1.1⟩ h3
    show (I.dual k (some g)).sem.inverse.mul (I.dual k (some g)).sem = _
    rw [this]; exact h3

theorem mapM_rhoArray {W : World} {r : Rep} (hr : r.Simple) : ∀ {gs : List (Interp ℝ)}, (∀ I ∈ gs, I.Dual W) →
    (gs.mapM fun I => Rep.rhoArray I r : Py _) = .ok (gs.map fun I => r.mat I)
  | [], _ => rfl
  | I :: t, h => by
    rw [mapM_cons, (hr.array (h I (by simp))).1, mapM_rhoArray hr fun J hJ => h J (by simp [hJ])]; rfl

/-- A network on batches is equivariant: transforming every row by its own group element transforms every row of the output. -/
def BatchEquivariant (model : List (List ℝ) → Py (List (List ℝ))) (repIn repOut : Rep) (gs : List (Interp ℝ)) (X : List (List ℝ)) : Prop :=
  model (zipWith (fun I x => (repIn.mat I).mulVec x) gs X) = (model X).map (zipWith (fun I y => (repOut.mat I).mulVec y) gs)

section
variable {W : World} {model : Bool → List (List ℝ) → Py (List (List ℝ))} {repIn repOut : Rep} {gs : List (Interp ℝ)} {X : List (List ℝ)}

/-- **C39.** During training the wrapper returns the model's own output (or raises what the model raises), for every draw of
group elements, if the model is equivariant under them and the two representations are `Scalar`, `V`, `V*` or
user-defined.  (`hlen`: the network returns one row of `rep_out.size()` numbers for each row of the batch.)
Not covered, because there the wrapper raises (`C39_composite_raises`): sums, products and deferred representations. -/
theorem C39_train_partial (hin : repIn.Simple) (hout : repOut.Simple) (hgs : ∀ I ∈ gs, I.Dual W) (hX : X.length = gs.length)
    (hlen : ∀ Y, model true X = .ok Y → Y.length = X.length ∧ ∀ y ∈ Y, y.length = repOut.size W)
    (heq : BatchEquivariant (model true) repIn repOut gs X) :
    groupAugmentation model repIn repOut gs X true = model true X := by
  have e1 : zipWith DMat.mulVec (gs.map fun I => repIn.mat I) X = zipWith (fun I x => (repIn.mat I).mulVec x) gs X := by
    rw [zipWith_map_left]
  simp only [groupAugmentation, if_true]
  rw [mapM_rhoArray (W := W) hout hgs, mapM_rhoArray (W := W) hin hgs]
  show (model true (zipWith DMat.mulVec (gs.map fun I => repIn.mat I) X) >>= fun Y =>
    .ok (zipWith (fun A y => A.inverse.mulVec y) (gs.map fun I => repOut.mat I) Y)) = model true X
  rw [e1, heq]
  cases hm : model true X with
  | error e => rfl
  | ok Y =>
    obtain ⟨h1, h2⟩ := hlen Y hm
    show Except.ok (zipWith (fun A y => A.inverse.mulVec y) (gs.map fun I => repOut.mat I)
      (zipWith (fun I y => (repOut.mat I).mulVec y) gs Y)) = Except.ok Y
    congr 1
    have key : ∀ (gs : List (Interp ℝ)) (Y : List (List ℝ)), (∀ I ∈ gs, I.Dual W) → (∀ y ∈ Y, y.length = repOut.size W) → Y.length = gs.length →
        zipWith (fun A y => A.inverse.mulVec y) (gs.map fun I => repOut.mat I) (zipWith (fun I y => (repOut.mat I).mulVec y) gs Y) = Y := by
      intro gs
      induction gs with
      | nil => intro Y _ _ h; rw [length_eq_zero_iff.1 h]; rfl
      | cons I t ih =>
        intro Y h hy hl
        cases Y with
        | nil => simp at hl
        | cons y Y =>
          simp only [map_cons, zipWith_cons_cons]
          have hs := hout.array (h I (by simp))
          rw [ih Y (fun J hJ => h J (by simp [hJ])) (fun y hy' => hy y (by simp [hy'])) (by simpa using hl)]
          rw [← DMat.mulVec_mul _ _ _ (by rw [hs.2.1.1]; exact hs.2.1.1), hs.2.2, DMat.mulVec_one _ (hy y (by simp))]
    exact key gs Y hgs h2 (h1.trans hX)

/-- At test time the wrapper is the model, whatever the model, the representations and the draws. -/
theorem C39_test : groupAugmentation model repIn repOut gs X false = model false X := rfl

/-- With a sum, a product or a deferred representation on either side, training raises on every non-empty batch, whatever the model. -/
theorem C39_composite_raises (h : ¬ repIn.Simple ∨ ¬ repOut.Simple) (hat : ∀ a, repIn = .key (.atom a) ∨ repOut = .key (.atom a) → a.G.isSome)
    (hg : gs ≠ []) : ∃ e, groupAugmentation model repIn repOut gs X true = .error e := by
  obtain ⟨I, t, rfl⟩ := exists_cons_of_ne_nil hg
  have key : ∀ r : Rep, ¬ r.Simple → (∀ a, r = .key (.atom a) → a.G.isSome) → ∃ e, ((I :: t).mapM fun I => Rep.rhoArray I r : Py _) = .error e := by
    intro r hr ha
    have : ∃ e, Rep.rhoArray I r = .error e := by
      match r, hr, ha with
      | .key .scalar, hr, _ => exact absurd trivial hr
      | .key (.fac (.atom a)), hr, ha => exact absurd (ha a rfl) hr
      | .key (.fac (.prod p)), _, _ => exact ⟨_, rfl⟩
      | .key (.dprod d), _, _ => exact ⟨_, rfl⟩
      | .sum s, _, _ => exact ⟨_, rfl⟩
      | .dsum l, _, _ => exact ⟨_, rfl⟩
      | .dprod l, _, _ => exact ⟨_, rfl⟩
    obtain ⟨e, he⟩ := this
    exact ⟨e, by rw [mapM_cons, he]; rfl⟩
  simp only [groupAugmentation, if_true]
  by_cases ho : repOut.Simple
  · obtain ⟨e, he⟩ := key repIn (h.resolve_right (not_not.2 ho)) fun a ha => hat a (Or.inl ha)
    rw [he]
    cases (I :: t).mapM fun I => Rep.rhoArray I repOut with
    | error e' => exact ⟨e', rfl⟩
    | ok l => exact ⟨e, rfl⟩
  · obtain ⟨e, he⟩ := key repOut ho fun a ha => hat a (Or.inr ha)
    rw [he]; exact ⟨e, rfl⟩

/-- The wrapper each dataset of the library builds for itself (`default_aug`) is such a case, since the attributes `rep_in` are
deferred representations: it raises on every training batch, for `Inertia` (any number `k ≥ 1` of masses), `O5Synthetic` and
`ParticleInteraction`. -/
theorem C39_default_aug_counterexample (W : World) (hg : gs ≠ []) :
    (∀ k, 1 ≤ k → ∃ rin rout, inertiaRepIn W k = .ok (.rep rin) ∧ inertiaRepOut W = .ok rout ∧
      groupAugmentation model rin rout gs X true = .error .notImplemented) ∧
    ∀ n, 2 ≤ n → ∃ rin, vectorsRepIn W n = .ok (.rep rin) ∧
      groupAugmentation model rin (.key .scalar) gs X true = .error .notImplemented := by
  obtain ⟨I, t, rfl⟩ := exists_cons_of_ne_nil hg
  have hsc : ∀ l : List (Interp ℝ), ∃ A, (l.mapM fun I => Rep.rhoArray I (.key .scalar) : Py _) = .ok A := by
    intro l
    induction l with
    | nil => exact ⟨[], rfl⟩
    | cons J l ih => obtain ⟨A, hA⟩ := ih; exact ⟨DMat.one 1 :: A, by rw [mapM_cons, hA]; rfl⟩
  refine ⟨fun k hk => ?_, fun n hn => ?_⟩
  · have ho : inertiaRepOut W = .ok (.dprod [Rep.V, Rep.V]) := rfl
    have hi : ∃ rin, inertiaRepIn W k = .ok (.rep rin) := by
      have hs : ∃ a, Rep.mulInt W (.key .scalar) k = .ok (.rep a) := by
        by_cases e1 : (k : ℤ) = 1
        · exact ⟨_, by rw [Rep.mulInt, if_pos e1]⟩
        · have e2 : ¬ (k : ℤ) = 0 := by omega
          have m1 : ∀ n, ((replicate n (Rep.key .scalar)).mapM (Rep.canon W) : Py _) = .ok (replicate n (Rep.key .scalar, range 1)) := by
            intro n
            induction n with
            | zero => rfl
            | succ n ih => rw [replicate_succ, mapM_cons, ih]; rfl
          have m2 : ∀ n, ((replicate n (Rep.key .scalar, range 1)).mapM (fun c => c.1.counter) : Py _) = .ok (replicate n [(Key.scalar, 1)]) := by
            intro n
            induction n with
            | zero => rfl
            | succ n ih => rw [replicate_succ, mapM_cons, ih]; rfl
          have m3 : ∃ s, mkSum W (replicate (k : ℤ).toNat (.key .scalar)) none = .ok s := by
            obtain ⟨n, rfl⟩ := Nat.exists_eq_add_of_le' hk
            have e3 : ((n + 1 : ℕ) : ℤ).toNat = n + 1 := rfl
            rw [mkSum, e3, m1]
            show ∃ s, (List.mapM _ (replicate (n + 1) (Rep.key .scalar, range 1)) >>= _) = Except.ok s
            rw [m2]; exact ⟨_, rfl⟩
          obtain ⟨s, hs⟩ := m3
          exact ⟨.sum s, by simp only [Rep.mulInt, if_neg e1, if_neg e2]; rw [hs]; rfl⟩
      have hv : ∃ b, Rep.mulInt W Rep.V k = .ok (.rep b) ∧ b.concrete = false := by
        by_cases e1 : (k : ℤ) = 1
        · exact ⟨Rep.V, by rw [Rep.mulInt, if_pos e1], rfl⟩
        · have e2 : ¬ (k : ℤ) = 0 := by omega
          exact ⟨mkDeferredSum (replicate (k : ℤ).toNat Rep.V), by simp only [Rep.mulInt, if_neg e1, if_neg e2]; rfl, rfl⟩
      obtain ⟨a, ha⟩ := hs
      obtain ⟨b, hb, hc⟩ := hv
      refine ⟨mkDeferredSum [a, b], ?_⟩
      rw [inertiaRepIn, ha, hb]
      show (Rep.add W a b >>= _) = _
      rw [Rep.add, hc, Bool.and_false, if_neg (by decide)]
      rfl
    obtain ⟨rin, hi⟩ := hi
    exact ⟨rin, _, hi, ho, rfl⟩
  · have h1 : vectorsRepIn W n = .ok (.rep (mkDeferredSum (replicate n Rep.V))) := by
      have e1 : ¬ (n : ℤ) = 1 := by omega
      have e2 : ¬ (n : ℤ) = 0 := by omega
      simp only [vectorsRepIn, Rep.mulInt, if_neg e1, if_neg e2]
      rfl
    refine ⟨_, h1, ?_⟩
    obtain ⟨A, hA⟩ := hsc (I :: t)
    simp only [groupAugmentation, if_true]
    rw [hA]; rfl

end

section
variable {W : World} {g : Gid} {N : ℕ} {custom : ∀ k g, AtomRep ℝ (W.d g) (W.usize k g)}
  {lie disc : ∀ g, List (Matrix (Fin (W.d g)) (Fin (W.d g)) ℝ)} {solve : ℕ → LinOp ℝ → Py (DMat ℝ)} {rng : Rng} {σ : NetSt ℝ}
  {a o : Rep} {mids : List Rep} {b : ℕ}

/-- **C39 for `EMLP`.** Wrapping a network built by `EMLP` between representations of the above kind changes nothing: for every
value of the parameters, every batch and every draw of group elements, one `h` for each row. -/
theorem C39_emlp_partial (hW : W.SingleOK g N) (ok : GroupsOK W custom lie disc)
    (hsol : SolverOK W (gensOf W (stdAtoms W custom) lie disc) solve) (hσ : NetReach W g (gensOf W (stdAtoms W custom) lie disc) solve σ)
    (hrng : RngOK rng) (hov : ∀ r ∈ a :: o :: mids, r.Over W g N ∧ r.size W + r.gates W ≤ b) (hN : b * b ≤ N)
    {E : Emlp ℝ} {σ' : NetSt ℝ} (hE : Emlp.build W (gensOf W (stdAtoms W custom) lie disc) solve rng a mids o σ = .ok (E, σ'))
    (ha : a.Simple) (ho : o.Simple) (hc : ∀ r ∈ mids, r.CanonicalSum W)
    {ps : List (BlockParams ℝ)} {w : DMat ℝ} {β : List ℝ} (hp : E.Shaped ps w β) (c : ℝ) (act : ℝ → ℝ)
    {hs : List (Matrix (Fin (W.d g)) (Fin (W.d g)) ℝ)} (hg : ∀ h ∈ hs, Generated (lie g) (disc g) h)
    {X : List (List ℝ)} (hX : X.length = hs.length) (hx : ∀ x ∈ X, x.length = a.size W) :
    groupAugmentation (fun _ X => X.mapM (E.apply W c act ps w β)) a o (hs.map (Interp.elem W custom g)) X true =
      X.mapM (E.apply W c act ps w β) := by
  have good := (Emlp.build_meets hW gensOf_sized hsol hrng hov hN σ (hσ.ok hsol) E σ' hE).2
  have run : ∀ x : List ℝ, x.length = a.size W → ∃ z, E.apply W c act ps w β x = .ok z ∧ z.length = o.size W := by
    intro x hx
    obtain ⟨z, h1, h2, -⟩ := good.commutes hW (hov a (by simp)).1 (hov o (by simp)).1
      (fun r hr => ⟨(hov r (by simp [hr])).1, hc r hr⟩) c act (elem_dual (g := g) ok .one) (elem_fixes ok .one) (elem_perm ok .one) hp x hx
    exact ⟨z, h1, h2⟩
  have eqv : ∀ h ∈ hs, ∀ x : List ℝ, x.length = a.size W → ∀ z, E.apply W c act ps w β x = .ok z →
      E.apply W c act ps w β ((a.mat (Interp.elem W custom g h)).mulVec x) = .ok ((o.mat (Interp.elem W custom g h)).mulVec z) :=
    fun h hh x hx z hz => (C36_equivariant hW ok hsol hσ hrng hov hN hE hp c act (hg h hh) hx hz).2
  refine C39_train_partial (W := W) ha ho ?_ (by simpa using hX) ?_ ?_
  · intro I hI
    obtain ⟨h, hh, rfl⟩ := mem_map.1 hI
    exact elem_dual ok (hg h hh)
  · clear hX
    induction X with
    | nil => intro Y hY; cases hY; simp
    | cons x X ih =>
      intro Y hY
      obtain ⟨z, h1, h2⟩ := run x (hx x (by simp))
      simp only [mapM_cons, h1] at hY
      cases hr : X.mapM (E.apply W c act ps w β) with
      | error e => rw [hr] at hY; cases hY
      | ok Z =>
        rw [hr] at hY
        obtain ⟨l1, l2⟩ := ih (fun x h => hx x (by simp [h])) Z hr
        cases hY
        exact ⟨by simp [l1], fun y hy => by
          rcases mem_cons.1 hy with rfl | hy
          · exact h2
          · exact l2 y hy⟩
  · show mapM _ _ = _
    clear hg
    induction X generalizing hs with
    | nil =>
      rw [length_eq_zero_iff.1 hX.symm]; rfl
    | cons x X ih =>
      cases hs with
      | nil => simp at hX
      | cons h t =>
        obtain ⟨z, h1, h2⟩ := run x (hx x (by simp))
        simp only [map_cons, zipWith_cons_cons, mapM_cons]
        rw [eqv h (by simp) x (hx x (by simp)) z h1, h1, ih (by simpa using hX) (fun x h => hx x (by simp [h])) fun h hh => eqv h (by simp [hh])]
        beta_reduce
        cases X.mapM (E.apply W c act ps w β) <;> rfl

end

/-! A case: the model that doubles vectors, `rep_in = rep_out = V(G)` for the permutation group of example world `exW`, two
rows with different elements. -/

example (I J : Interp ℝ) (hI : I.Dual exW) (hJ : J.Dual exW) (x y : List ℝ) :
    BatchEquivariant (fun X => .ok (X.map fun x => x.map (2 * ·))) (.key (.atom (.vec 0 (some 2)))) (.key (.atom (.vec 0 (some 2)))) [I, J] [x, y] ∧
      (Rep.key (.atom (.vec 0 (some 2)))).Simple := by
  refine ⟨?_, rfl⟩
  have : ∀ (A : DMat ℝ) (v : List ℝ), (A.mulVec v).map (2 * ·) = A.mulVec (v.map (2 * ·)) := by
    intro A v
    refine List.ext_getElem (by simp) fun i h1 h2 => ?_
    simp only [DMat.mulVec, map_map, getElem_map, getElem_range, Function.comp]
    rw [Finset.mul_sum]
    refine Finset.sum_congr rfl fun j _ => ?_
    have : (v.map (2 * ·)).getD j 0 = 2 * v.getD j 0 := by
      simp only [getD_eq_getElem?_getD, getElem?_map]
      cases v[j]? <;> simp
    rw [this]; ring
  simp [BatchEquivariant, this, Except.map]

end Verif
