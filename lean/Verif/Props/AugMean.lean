import Verif.Props.Augment
import Verif.Props.GroupMean

/-! C140: averaged over a finite group, group augmentation makes every network equivariant; of a plain affine layer it makes Linear. -/
namespace Verif
open List

section
variable {W : World} {g : Gid} {N : ℕ} {custom : ∀ k g, AtomRep ℝ (W.d g) (W.usize k g)}
  {lie disc : ∀ g, List (Matrix (Fin (W.d g)) (Fin (W.d g)) ℝ)} {solve : ℕ → LinOp ℝ → Py (DMat ℝ)}

/-- What the wrapper makes of one row of a network that treats the rows separately. -/
theorem aug_rows (ok : GroupsOK W custom lie disc) {a o : Rep} (ha : a.Simple) (ho : o.Simple) (f : List ℝ → List ℝ)
    {hs : List (Matrix (Fin (W.d g)) (Fin (W.d g)) ℝ)} (hg : ∀ h ∈ hs, Generated (lie g) (disc g) h) (X : List (List ℝ)) :
    groupAugmentation (fun _ X => .ok (X.map f)) a o (hs.map (Interp.elem W custom g)) X true =
      .ok (zipWith (fun h x => (o.mat (Interp.elem W custom g h)).inverse.mulVec (f ((a.mat (Interp.elem W custom g h)).mulVec x))) hs X) := by
  have hd : ∀ I ∈ hs.map (Interp.elem W custom g), I.Dual W := fun I hI => by
    obtain ⟨h, hh, rfl⟩ := mem_map.1 hI
    exact elem_dual ok (hg h hh)
  simp only [groupAugmentation, if_true]
  rw [mapM_rhoArray (W := W) ho hd, mapM_rhoArray (W := W) ha hd]
  refine congrArg Except.ok ?_
  clear hd hg
  induction hs generalizing X with
  | nil => rfl
  | cons h t ih =>
    cases X with
    | nil => simp
    | cons x X =>
      simp only [map_cons, zipWith_cons_cons]
      exact congrArg _ (ih X)

/-- The inverse of the matrix of `h`, from that of `ht`. -/
theorem inverse_shift (ok : GroupsOK W custom lie disc) {o : Rep} (ho : o.Simple) (hwf : o.WF W) {h t : Matrix (Fin (W.d g)) (Fin (W.d g)) ℝ}
    (hh : Generated (lie g) (disc g) h) (ht : Generated (lie g) (disc g) t) :
    (o.mat (Interp.elem W custom g h)).inverse = (o.mat (Interp.elem W custom g t)).mul (o.mat (Interp.elem W custom g (h * t))).inverse := by
  obtain ⟨-, sh, ih⟩ := ho.array (elem_dual (custom := custom) ok hh)
  obtain ⟨-, st, it⟩ := ho.array (elem_dual (custom := custom) ok ht)
  have sq : ∀ {A : DMat ℝ}, A.IsSq (o.size W) → A.inverse.IsSq (o.size W) := fun hA => ⟨hA.1, hA.1⟩
  have e : (o.mat (Interp.elem W custom g (h * t))).inverse = (o.mat (Interp.elem W custom g t)).inverse.mul (o.mat (Interp.elem W custom g h)).inverse := by
    rw [elem_mul ok hwf hh ht]
    refine inverse_eq (n := o.size W) ⟨sh.1, st.2⟩ ⟨(sq st).1, (sq sh).2⟩ ?_
    rw [DMat.mul_assoc' _ _ _ (by rw [(sq st).2, (sq sh).1]), ← DMat.mul_assoc' _ _ (o.mat (Interp.elem W custom g t)) (by rw [(sq sh).2, sh.1]), ih,
      DMat.one_mul' _ st.1, it]
  rw [e, ← DMat.mul_assoc' _ _ _ (by rw [st.2, (sq st).1]), DMat.mul_eq_one_comm (sq st) st it, DMat.one_mul' _ (sq sh).1]

/-- **C140.** Let a network treat the rows of a batch separately, by any function `f`.  In training, GroupAugmentation gives each row an output that depends on this row and
its group element only, and the mean of this output over a finite group is an equivariant function of the row. -/
theorem C140_mean (ok : GroupsOK W custom lie disc) (S : Finset (Matrix (Fin (W.d g)) (Fin (W.d g)) ℝ)) (hS : ∀ h, h ∈ S ↔ Generated (lie g) (disc g) h)
    {a o : Rep} (ha : a.Simple) (ho : o.Simple) (hwa : a.WF W) (hwo : o.WF W) (f : List ℝ → List ℝ) :
    ∃ y : Matrix (Fin (W.d g)) (Fin (W.d g)) ℝ → List ℝ → List ℝ,
      (∀ hs X, (∀ h ∈ hs, h ∈ S) → groupAugmentation (fun _ X => .ok (X.map f)) a o (hs.map (Interp.elem W custom g)) X true = .ok (zipWith y hs X)) ∧
      ∀ t ∈ S, ∀ x : List ℝ, x.length = a.size W →
        meanOver S (o.size W) (fun h => y h ((a.mat (Interp.elem W custom g t)).mulVec x)) =
          (o.mat (Interp.elem W custom g t)).mulVec (meanOver S (o.size W) fun h => y h x) := by
  classical
  refine ⟨_, fun hs X hh => aug_rows ok ha ho f (fun h hm => (hS h).1 (hh h hm)) X, fun t ht x hx => ?_⟩
  have gt := (hS t).1 ht
  obtain ⟨-, st, -⟩ := ho.array (elem_dual (custom := custom) ok gt)
  obtain ⟨-, sa, -⟩ := ha.array (elem_dual (custom := custom) ok gt)
  have inj : ∀ p ∈ S, ∀ q ∈ S, p * t = q * t → p = q := fun p _ q _ h => by
    have := congrArg (· * t⁻¹) h
    simpa only [Matrix.mul_nonsing_inv_cancel_right _ _ (Generated.isUnit (ok.unit g) gt)] using this
  have himg : S.image (· * t) = S := by
    apply Finset.eq_of_subset_of_card_le
    · intro z hz
      obtain ⟨b, hb, rfl⟩ := Finset.mem_image.1 hz
      exact (hS _).2 (((hS b).1 hb).mul gt)
    · rw [Finset.card_image_of_injOn fun p hp q hq h => inj p hp q hq h]
  rw [mulVec_meanOver st.2, st.1]
  unfold meanOver
  refine map_congr_left fun i _ => ?_
  congr 1
  conv_rhs => rw [← himg]
  rw [Finset.sum_image fun p hp q hq h => inj p hp q hq h]
  refine Finset.sum_congr rfl fun h hh => ?_
  have gh := (hS h).1 hh
  obtain ⟨-, sh, -⟩ := ha.array (elem_dual (custom := custom) ok gh)
  obtain ⟨-, sm, -⟩ := ho.array (elem_dual (custom := custom) ok (gh.mul gt))
  beta_reduce
  rw [inverse_shift ok ho hwo gh gt, ← DMat.mulVec_mul _ _ _ (by rw [sh.2, sa.1]), ← elem_mul ok hwa gh gt,
    DMat.mulVec_mul _ _ _ (by rw [st.2]; exact sm.1.symm)]

/-- **C140.** For a finite orthogonal group, wrap the plain layer `x ↦ wx+b` in GroupAugmentation: the mean of its output in training over the group is the output of Linear
with the same parameters. -/
theorem C140_linear (hW : W.SingleOK g N) (ok : GroupsOK W custom lie disc) (hor : W.orth g = true)
    (S : Finset (Matrix (Fin (W.d g)) (Fin (W.d g)) ℝ)) (hS : ∀ h, h ∈ S ↔ Generated (lie g) (disc g) h)
    (hsol : SolverOK W (gensOf W (stdAtoms W custom) lie disc) solve) {a o : Rep} (ha : a.Over W g N) (hoo : o.Over W g N) (hN : o.size W * a.size W ≤ N)
    (has : a.Simple) (hos : o.Simple)
    {L : LinearL ℝ} (hL : L.Built W g (gensOf W (stdAtoms W custom) lie disc) solve a o) {w : DMat ℝ} {b : List ℝ}
    (h1 : w.rows = o.size W) (h2 : w.cols = a.size W) (h3 : b.length = o.size W) :
    ∃ y : Matrix (Fin (W.d g)) (Fin (W.d g)) ℝ → List ℝ → List ℝ,
      (∀ hs X, (∀ h ∈ hs, h ∈ S) →
        groupAugmentation (fun _ X => .ok (X.map fun x => zipWith (· + ·) (w.mulVec x) b)) a o (hs.map (Interp.elem W custom g)) X true = .ok (zipWith y hs X)) ∧
      ∀ x : List ℝ, x.length = a.size W → L.apply w b x = .ok (meanOver S (o.size W) fun h => y h x) := by
  classical
  refine ⟨_, fun hs X hh => aug_rows ok has hos _ (fun h hm => (hS h).1 (hh h hm)) X, fun x hx => ?_⟩
  rw [C138_linear hW ok hor S hS hsol ha hoo hN hL h1 h2 h3 hx]
  have ii : ∀ p ∈ S, p⁻¹⁻¹ = p := fun p hp => Matrix.nonsing_inv_nonsing_inv _ (Generated.isUnit (ok.unit g) ((hS p).1 hp))
  have inj : ∀ p ∈ S, ∀ q ∈ S, p⁻¹ = q⁻¹ → p = q := fun p hp q hq h => by rw [← ii p hp, h, ii q hq]
  have himg : S.image (·⁻¹) = S := by
    apply Finset.eq_of_subset_of_card_le
    · intro z hz
      obtain ⟨c, hc, rfl⟩ := Finset.mem_image.1 hz
      exact (hS _).2 (Generated.inverse (ok.unit g) ((hS c).1 hc))
    · rw [Finset.card_image_of_injOn fun p hp q hq h => inj p hp q hq h]
  refine congrArg Except.ok ?_
  unfold meanOver
  refine map_congr_left fun i _ => ?_
  congr 1
  conv_lhs => rw [← himg]
  rw [Finset.sum_image fun p hp q hq h => inj p hp q hq h]
  refine Finset.sum_congr rfl fun h hh => ?_
  have gh := (hS h).1 hh
  obtain ⟨-, sh, -⟩ := hos.array (elem_dual (custom := custom) ok gh)
  obtain ⟨-, si, -⟩ := hos.array (elem_dual (custom := custom) ok (Generated.inverse (ok.unit g) gh))
  beta_reduce
  rw [ii h hh, inverse_eq sh si (elem_inv_mul ok hor hoo.wf gh)]

end

/-- The hypotheses are met by `S(3)` and a network of vectors that is not equivariant, `x ↦ (x₀², 1, 0)`. -/
example : ∃ (G : Grp) (S : Finset (Matrix (Fin 3) (Fin 3) ℝ)) (y : Matrix (Fin 3) (Fin 3) ℝ → List ℝ → List ℝ), symGroup 3 = .ok G ∧ S.card = 6 ∧
    (∀ hs X, (∀ h ∈ hs, h ∈ S) → groupAugmentation (fun _ X => .ok (X.map fun x => [x.getD 0 0 ^ 2, 1, 0])) (.key (.fac (.atom (.vec 0 (some 0)))))
      (.key (.fac (.atom (.vec 0 (some 0))))) (hs.map (Interp.elem setsW (fun k g => trivialAtom _ _) 0)) X true = .ok (zipWith y hs X)) ∧
    ∀ t ∈ S, ∀ x : List ℝ, x.length = 3 →
      meanOver S 3 (fun h => y h (((Rep.key (.fac (.atom (.vec 0 (some 0))))).mat (Interp.elem setsW (fun k g => trivialAtom _ _) 0 t)).mulVec x)) =
        ((Rep.key (.fac (.atom (.vec 0 (some 0))))).mat (Interp.elem setsW (fun k g => trivialAtom _ _) 0 t)).mulVec (meanOver S 3 fun h => y h x) := by
  classical
  obtain ⟨G, h1, -, h3, -, hgen⟩ := C54_symmetric 3 (by norm_num)
  have ok := sets_groups (G := G) fun h hh => (hgen h).1 (.gen hh)
  obtain ⟨S, hSd⟩ : ∃ S, S = (Finset.univ : Finset (Equiv.Perm (Fin 3))).image (fun σ => σ.permMatrix ℝ) := ⟨_, rfl⟩
  have hS : ∀ h, h ∈ S ↔ Generated [] (G.disc.map (denseGen 3)) h := fun h => by
    rw [hgen, hSd]
    simp [eq_comm]
  have hr : (Rep.key (.fac (.atom (.vec 0 (some 0))))).Over setsW 0 9 :=
    ⟨rfl, by intro k hk; rw [show k = .fac (.atom (.vec 0 (some 0))) by simpa [Rep.keys, Key.base, Fac.base] using hk]; exact ⟨by decide, .inl ⟨rfl, 0, rfl⟩, by decide⟩⟩
  obtain ⟨y, y1, y2⟩ := C140_mean (W := setsW) (lie := fun _ => []) (disc := fun _ => G.disc.map (denseGen 3)) (custom := fun k g => trivialAtom _ _)
    (g := 0) ok S hS (a := .key (.fac (.atom (.vec 0 (some 0))))) (o := .key (.fac (.atom (.vec 0 (some 0))))) rfl rfl hr.wf hr.wf fun x => [x.getD 0 0 ^ 2, 1, 0]
  refine ⟨G, S, y, h1, ?_, y1, y2⟩
  rw [hSd, Finset.card_image_of_injective _ permMatrix_injective, Finset.card_univ, Fintype.card_perm]
  rfl

end Verif
