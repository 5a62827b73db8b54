import Verif.Lemmas.Deferred
import Verif.Spec.Args
import Verif.Props.ExampleInterp

/-!
# Representations written without a group, and re-instantiation (C12, C13)
-/
namespace Verif
open List

variable {W : World} {g : Gid} {N : ℕ}

/-- **C12.** Write any expression with the group-less `V` (and user-defined representations), then call the result on
`g`, whatever the attribute `Scalar.G` is by then: the call succeeds, and the size and the matrices are those of the
expression, the same as for the expression written with `V(g)` from the start. -/
theorem C12_deferred (hW : W.SingleOK g N) {e : Expr} (he : e.OK W g) (hb : e.bound W g ≤ N) :
    ∃ r q, e.evalFree W = .ok r ∧ e.eval W g = .ok q ∧ ∀ sg, SgOK W g sg →
      ∃ r' sg', Rep.call W (some g) sg r = .ok (r', sg') ∧ r'.Over W g N ∧ SgOK W g sg' ∧
        r'.size W = e.dim W g ∧ q.size W = e.dim W g ∧
        ∀ (R : Type) [CommRing R] (I : Interp R), I.Dual W → r'.mat I = (e.den g I).1 ∧ q.mat I = (e.den g I).1 := by
  obtain ⟨r, r1, r2, r3, r4⟩ := Expr.evalFree_good hW e he hb
  obtain ⟨q, q1, -, -, q4, q5⟩ := Expr.eval_good hW e he hb
  refine ⟨r, q, r1, q1, fun sg hs => ?_⟩
  obtain ⟨r', sg', c1, c2, c3, c4, c5⟩ := Rep.Def.call hW r sg r2 hs
  exact ⟨r', sg', c1, c3, c2, c4.trans r3, q4, fun R _ I hI => ⟨by rw [c5 R I hI, r4], q5 R I hI⟩⟩

/-- `(2*V*V.T + V + 1)(SL(2))`: the hypotheses hold. -/
example : ∃ r, (Expr.addNat (.add (.nsmul 2 (.mul (.rep 0) (.dual (.rep 0)))) (.rep 0)) 1).evalFree exW = .ok r ∧
    ∃ r' sg', Rep.call exW (some 1) (some 1) r = .ok (r', sg') ∧ r'.size exW = 11 := by
  obtain ⟨r, q, h1, -, h2⟩ := C12_deferred (exW_single 1 20 (by decide))
    (e := .addNat (.add (.nsmul 2 (.mul (.rep 0) (.dual (.rep 0)))) (.rep 0)) 1)
    ⟨⟨by decide, ⟨by decide, Or.inl rfl⟩, by decide, Or.inl rfl⟩, by decide, Or.inl rfl⟩ (by decide)
  obtain ⟨r', sg', h3, -, -, h4, -⟩ := h2 (some 1) (SgOK.some _ _)
  exact ⟨r, h1, r', sg', h3, h4⟩

theorem Rep.powZ_nat (a : Rep) (n : ℕ) : Rep.powZ W a n = Rep.pow W a n := by
  unfold Rep.powZ
  rw [if_pos (by omega), Int.toNat_natCast]

/-- **C12 for tensor types.** `T(p,q,g)` has size `d^(p+q)` and acts by `M ⊗ ⋯ ⊗ M ⊗ M⁻ᵀ ⊗ ⋯ ⊗ M⁻ᵀ`. -/
theorem C12_tensor (hW : W.SingleOK g N) (hd : 2 ≤ W.d g) (p q : ℕ) (hN : W.d g ^ (p + q) ≤ N) (hN' : W.d g ≤ N) :
    ∃ r sg', tensorT W p q (some g) = .ok (r, sg') ∧ r.Over W g N ∧ SgOK W g sg' ∧ r.size W = W.d g ^ (p + q) ∧
      ∀ (R : Type) [CommRing R] (I : Interp R), I.Dual W → r.mat I =
        DMat.kron (DMat.kronL (replicate p (I.vec 0 (some g)).sem)) (DMat.kronL (replicate q (I.dual 0 (some g)).sem)) := by
  have hle : ∀ m, m ≤ p + q → W.d g ^ m ≤ N := fun m hm => (Nat.pow_le_pow_right (by omega) hm).trans hN
  obtain ⟨r, r1, r2, r3, r4⟩ := Expr.evalFree_good hW (.mul (.pow (.rep 0) p) (.pow (.dual (.rep 0)) q)) (g := g)
    ⟨⟨hd, Or.inl rfl⟩, ⟨hd, Or.inl rfl⟩⟩ (by
      simp only [Expr.bound, Expr.dim, max_le_iff]
      refine ⟨?_, ⟨hle p (by omega), hN'⟩, hle q (by omega), hN'⟩
      show W.d g ^ p * W.d g ^ q ≤ N
      rw [← pow_add]; exact hN)
  obtain ⟨r', sg', c1, c2, c3, c4, c5⟩ := Rep.Def.call hW r W.scalarG r2 hW.sgOK
  refine ⟨r', sg', ?_, c3, c2, ?_, fun R _ I hI => ?_⟩
  · unfold tensorT
    simp only [Rep.powZ_nat]
    simp only [Expr.evalFree] at r1 ⊢
    rw [← c1]
    have e1 : ∀ (x y : Py Rep) (f : Rep → Rep → Py Rep) (k : Rep → Py (Rep × Option Gid)),
        (x >>= fun x => y >>= fun y => f x y) = .ok r → (x >>= fun x => y >>= fun y => f x y >>= k) = k r := by
      intro x y f k h
      cases x with
      | error e => cases h
      | ok x =>
        cases y with
        | error e => cases h
        | ok y =>
          change f x y = _ at h
          show (f x y >>= k) = _
          rw [h]; rfl
    exact e1 _ _ _ _ r1
  · rw [c4, r3]; show W.d g ^ p * W.d g ^ q = _; rw [pow_add]
  · rw [c5 R I hI, r4]; rfl

/-- `T(2,1)` of `SL(2)`. -/
example : ∃ r sg', tensorT exW 2 1 (some 1) = .ok (r, sg') ∧ r.size exW = 8 := by
  obtain ⟨r, sg', h, -, -, hs, -⟩ := C12_tensor (exW_single 1 8 (by decide)) (by decide) 2 1 (by decide) (by decide)
  exact ⟨r, sg', h, hs⟩

/-- A product that already has its group cannot be instantiated again: `(V(G)*V(G) + V)(G)` raises, although
`(V*V + V)(G)` does not. -/
theorem C12_mixed_raises : ∃ p r, Rep.mul exW (.key (.atom (.vec 0 (some 0)))) (.key (.atom (.vec 0 (some 0)))) = .ok p ∧
    Rep.add exW p Rep.V = .ok r ∧ ∀ sg, Rep.call exW (some 0) sg r = .error .notImplemented := by
  refine ⟨_, _, rfl, rfl, fun sg => rfl⟩

/-! ### C13 -/

theorem Key.call_same {k : Key} (hk : W.Single g N k) (sg : Option Gid) (hs : SgOK W g sg) :
    (k.Simple → ∃ sg', Key.call W (some g) sg k = .ok (k, sg') ∧ SgOK W g sg') ∧
    (¬ k.Simple → Key.call W (some g) sg k = .error .notImplemented) := by
  match k, hk with
  | .scalar, _ => exact ⟨fun _ => ⟨some g, rfl, SgOK.some W g⟩, fun h => absurd trivial h⟩
  | .fac (.prod p), _ => exact ⟨fun h => h.elim, fun _ => rfl⟩
  | .fac (.atom a), hk =>
    refine ⟨fun _ => ⟨sg, ?_, hs⟩, fun h => absurd trivial h⟩
    have hl : W.Letter g a := hk.2
    rcases hl.1 with ⟨ho, k, rfl⟩ | ⟨ho, rfl | rfl⟩
    · rfl
    · rfl
    · simp [Key.call, Atom.call, Atom.T, ho]

theorem callItems_same : ∀ (c : Counter Key) (acc : Counter Key) (sg : Option Gid), SgOK W g sg → (∀ k ∈ c.keys, W.Single g N k) →
    ((acc ++ c).keys.Nodup) →
    ((∀ k ∈ c.keys, k.Simple) → ∃ sg', callItems W (some g) sg acc c = .ok (acc ++ c, sg') ∧ SgOK W g sg') ∧
    ((¬ ∀ k ∈ c.keys, k.Simple) → callItems W (some g) sg acc c = .error .notImplemented)
  | [], acc, sg, hs, _, _ => ⟨fun _ => ⟨sg, by simp [callItems], hs⟩, fun h => absurd (by simp [Counter.keys]) h⟩
  | (k, n) :: c, acc, sg, hs, hk, hn => by
    have h1 := Key.call_same (hk k (by simp [Counter.keys])) sg hs
    have hset : dictSet k n acc = acc ++ [(k, n)] := by
      have : k ∉ acc.keys := by
        intro hx
        have : acc.keys ++ (k :: Counter.keys c) = (acc ++ (k, n) :: c).keys := by simp [Counter.keys]
        rw [← this] at hn
        exact (nodup_append.1 hn).2.2 k hx k mem_cons_self rfl
      clear hn
      induction acc with
      | nil => rfl
      | cons a t ih =>
        obtain ⟨k', n'⟩ := a
        simp only [Counter.keys, map_cons, mem_cons, not_or] at this
        simp only [dictSet]
        rw [if_neg (fun e => this.1 e.symm), ih this.2]; rfl
    by_cases hsimp : k.Simple
    · obtain ⟨sg', c1, c2⟩ := h1.1 hsimp
      obtain ⟨r1, r2⟩ := callItems_same c (acc ++ [(k, n)]) sg' c2 (fun x hx => hk x (by
        simp only [Counter.keys, map_cons, mem_cons]; exact Or.inr hx)) (by simpa using hn)
      constructor
      · intro h
        obtain ⟨s, s1, s2⟩ := r1 fun x hx => h x (by simp only [Counter.keys, map_cons, mem_cons]; exact Or.inr hx)
        refine ⟨s, ?_, s2⟩
        simp only [callItems]
        rw [c1]
        show callItems W (some g) sg' (dictSet k n acc) c = _
        rw [hset, s1]; simp
      · intro h
        have := r2 fun h' => h fun x hx => by
          simp only [Counter.keys, map_cons, mem_cons] at hx
          rcases hx with rfl | hx
          exacts [hsimp, h' x hx]
        simp only [callItems]
        rw [c1]
        show callItems W (some g) sg' (dictSet k n acc) c = _
        rw [hset, this]
    · refine ⟨fun h => absurd (h k (by simp [Counter.keys])) hsimp, fun _ => ?_⟩
      simp only [callItems]
      rw [h1.2 hsimp]; rfl

/-- **C13, on the same group.** Calling a direct sum over `g` on `g` again gives the very same representation (same
summands, same multiplicities, same coordinates) if no summand is a tensor product, and raises
`NotImplementedError` otherwise.

The full statement (the same summands moved to any group, with the same multiplicities) is false: see the three
theorems below. -/
theorem C13_same_group_partial (hW : W.SingleOK g N) {s : SRep} (hs : Rep.Over W g N (.sum s)) {sg : Option Gid} (hsg : SgOK W g sg) :
    ((∀ k ∈ s.c.keys, k.Simple) → ∃ sg', Rep.call W (some g) sg (.sum s) = .ok (.sum s, sg') ∧ SgOK W g sg') ∧
    ((¬ ∀ k ∈ s.c.keys, k.Simple) → Rep.call W (some g) sg (.sum s) = .error .notImplemented) := by
  have hw : s.WF W := hs.wf
  obtain ⟨h1, h2⟩ := callItems_same s.c [] sg hsg hs.key (by simpa using hw.cnt.nodup)
  constructor
  · intro h
    obtain ⟨sg', c1, c2⟩ := h1 h
    refine ⟨sg', ?_, c2⟩
    simp only [Rep.call]
    rw [c1]
    show Except.ok (Rep.sum (mkSumC (W.setG sg') ([] ++ s.c) (some s.perm)), sg') = _
    rw [nil_append, mkSumC_perm (W := W.setG sg') (Rep.Over.setG hW c2 hs).wf]
  · intro h
    simp only [Rep.call]
    rw [h2 h]; rfl

/-- **C13 fails: summands that become equal are merged.** `V + V*` of a group that is not orthogonal (like `SL(2)`)
called on an orthogonal group of the same dimension: one copy of `V` is left, and the size drops from 4 to 2. -/
theorem C13_dual_merged : ∃ s s', Rep.add exW (.key (.atom (.vec 0 (some 1)))) (.key (.atom (.dual 0 (some 1)))) = .ok (.sum s) ∧
    Rep.call exW (some 3) none (.sum s) = .ok (.sum s', none) ∧
    s.size exW = 4 ∧ s'.c = [(.atom (.vec 0 (some 3)), 1)] ∧ s'.size exW = 2 := by
  refine ⟨_, _, rfl, rfl, ?_, ?_, ?_⟩ <;> decide +kernel

/-- **C13 fails: the same representation of two groups.** `V(G) + V(H)` called on `K`: one copy of `V(K)`. -/
theorem C13_groups_merged : ∃ s s', Rep.add exW (.key (.atom (.vec 0 (some 0)))) (.key (.atom (.vec 0 (some 2)))) = .ok (.sum s) ∧
    Rep.call exW (some 3) none (.sum s) = .ok (.sum s', none) ∧ s'.c = [(.atom (.vec 0 (some 3)), 1)] := by
  refine ⟨_, _, rfl, rfl, ?_⟩; decide +kernel

/-- **C13 fails: the stored ordering is kept though the dimension changes.** `V(G) + Scalar` for a group of dimension 3
called on a group of dimension 2: the result has size 3 but its ordering is `[3,0,1]`, not a permutation of
`0,1,2`, so it is no representation at all. -/
theorem C13_stale_ordering : ∃ s s', Rep.add exW (.key (.atom (.vec 0 (some 0)))) (.key .scalar) = .ok (.sum s) ∧
    Rep.call exW (some 3) none (.sum s) = .ok (.sum s', some 3) ∧
    s'.size exW = 3 ∧ s'.perm = [3, 0, 1] := by
  refine ⟨_, _, rfl, rfl, ?_, ?_⟩ <;> decide +kernel

/-- `2*V + Scalar` of `SO(3)`: the hypotheses of `C13_same_group_partial` hold and the call returns it unchanged. -/
example : ∃ s : SRep, Rep.add exW (.key (.atom (.vec 0 (some 0)))) (.key .scalar) = .ok (.sum s) ∧
    ∃ sg', Rep.call exW (some 0) none (.sum s) = .ok (.sum s, sg') := by
  obtain ⟨r, h1, h2, h3, h4, -⟩ := Expr.eval_good (exW_single 0 7 (by decide)) (.add (.rep 0) .scalar)
    ⟨⟨by decide, Or.inl rfl⟩, trivial⟩ (by decide)
  have e : ∃ s : SRep, Rep.add exW (.key (.atom (.vec 0 (some 0)))) (.key .scalar) = .ok (.sum s) ∧ s.c = [(.scalar, 1), (.atom (.vec 0 (some 0)), 1)] := by
    refine ⟨_, rfl, ?_⟩; decide +kernel
  obtain ⟨s, hs, hc⟩ := e
  have hr : r = .sum s := by
    have : Expr.eval exW 0 (.add (.rep 0) .scalar) = .ok (.sum s) := hs
    rw [h1] at this; exact Except.ok.inj this
  subst hr
  obtain ⟨sg', h5, -⟩ := (C13_same_group_partial (exW_single 0 7 (by decide)) ⟨h2, h3⟩ (sg := none) (fun h e => by cases e)).1 (by
    rw [hc]; simp [Counter.keys, Key.Simple, Key.atom])
  exact ⟨s, hs, sg', h5⟩

end Verif
