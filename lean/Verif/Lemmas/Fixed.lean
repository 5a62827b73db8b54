import Verif.Lemmas.Ortho
import Verif.Lemmas.RepHom

/-! Invariant vectors of direct sums, tensor products and reindexed representations; null space of stacked matrices. -/
namespace Verif
open List DMat
variable {W : World} {R : Type} [CommRing R]

/-! ### Stacked matrices -/

theorem DMat.vstack2_mulVec (A B : DMat R) (v : List R) (h : B.cols = A.cols) :
    (vstack2 A B).mulVec v = A.mulVec v ++ B.mulVec v := by
  refine vec_ext (by simp [vstack2]) fun i hi => ?_
  have hi' : i < A.rows + B.rows := by simpa [vstack2] using hi
  rw [getD_mulVec (A := vstack2 A B) hi']
  by_cases hA : i < A.rows
  · rw [getD_append _ _ _ _ (by simpa), getD_mulVec hA]
    exact Finset.sum_congr rfl fun j hj => by
      rw [vstack2, of_e (i := i) (by omega) (Finset.mem_range.1 hj), if_pos hA]
  · rw [getD_append_right _ _ _ _ (by simpa using hA), length_mulVec, getD_mulVec (by omega), h]
    exact Finset.sum_congr rfl fun j hj => by
      rw [vstack2, of_e (i := i) (by omega) (Finset.mem_range.1 hj), if_neg hA]

theorem DMat.vstack_ker {n : ℕ} : ∀ {l : List (DMat R)}, l ≠ [] → (∀ A ∈ l, A.cols = n) → (vstack l).cols = n ∧
    ∀ v, ((vstack l).mulVec v = replicate (vstack l).rows 0 ↔ ∀ A ∈ l, A.mulVec v = replicate A.rows 0)
  | [A], _, h => ⟨h A (by simp), fun v => by simp [vstack]⟩
  | A :: B :: t, _, h => by
    obtain ⟨hc, ih⟩ := vstack_ker (l := B :: t) (by simp) fun X hX => h X (by simp_all)
    have e : vstack (A :: B :: t) = vstack2 A (vstack (B :: t)) := rfl
    refine ⟨h A (by simp), fun v => ?_⟩
    rw [e, vstack2_mulVec _ _ _ (by rw [hc, h A (by simp)]), forall_mem_cons, ← ih v]
    have hr : (vstack2 A (vstack (B :: t))).rows = A.rows + (vstack (B :: t)).rows := rfl
    rw [hr, replicate_add]
    constructor
    · intro h; exact append_inj h (by simp)
    · rintro ⟨h1, h2⟩; rw [h1, h2]

theorem DMat.sub_one_mulVec (A : DMat R) {n : ℕ} (hA : A.IsSq n) (v : List R) (hv : v.length = n) :
    (A.add (DMat.smul (-1) (DMat.one n))).mulVec v = replicate n 0 ↔ A.mulVec v = v := by
  have key : ∀ i < n, ((A.add (DMat.smul (-1) (DMat.one n))).mulVec v).getD i 0 = (A.mulVec v).getD i 0 - v.getD i 0 := by
    intro i hi
    rw [getD_mulVec (by simpa [DMat.add, hA.1] using hi), getD_mulVec (by rwa [hA.1])]
    have h1 := congrArg (fun w => List.getD w i 0) (mulVec_one (R := R) v hv)
    rw [getD_mulVec hi] at h1
    rw [← h1]
    simp only [DMat.add, of_cols, hA.2]
    rw [show (DMat.one n : DMat R).cols = n from rfl, ← Finset.sum_sub_distrib]
    refine Finset.sum_congr rfl fun j hj => ?_
    have hj := Finset.mem_range.1 hj
    rw [of_e (by rwa [hA.1]) hj, smul_e]
    ring
  have hrow : (A.add (DMat.smul (-1) (DMat.one n))).rows = n := hA.1
  constructor
  · intro e
    refine vec_ext (by simp [hA.1, hv]) fun i hi => ?_
    have hi' : i < n := by simpa [hA.1] using hi
    have := key i hi'
    rw [e, getD_eq_getElem _ _ (by simpa), getElem_replicate] at this
    exact (sub_eq_zero.1 this.symm)
  · intro e
    have hlen : ((A.add (DMat.smul (-1) (DMat.one n))).mulVec v).length = n := by rw [length_mulVec, hrow]
    refine vec_ext (by rw [hlen, length_replicate]) fun i hi => ?_
    have hi' : i < n := by rwa [hlen] at hi
    rw [key i hi', e, sub_self, getD_eq_getElem _ _ (by simpa), getElem_replicate]

/-! ### Acting through one group -/

theorem Interp.Sized.only {h : Interp R} (hh : h.Sized W) (g : Gid) : (h.only W g).Sized W := by
  constructor <;> intro k g' <;> simp only [Interp.only] <;> split
  · exact hh.vec k g'
  · exact ⟨rfl, rfl⟩
  · exact hh.dual k g'
  · exact ⟨rfl, rfl⟩

theorem Interp.Sized.onlyD {h : Interp R} (hh : h.Sized W) (g : Gid) : (h.onlyD W g).Sized W := by
  constructor <;> intro k g' <;> simp only [Interp.onlyD] <;> split
  · exact hh.vec k g'
  · exact ⟨rfl, rfl⟩
  · exact hh.dual k g'
  · exact ⟨rfl, rfl⟩

theorem Fac.rho_congr {I J : Interp R} {f : Fac} (h : ∀ a ∈ f.letters, (a.rho I).sem = (a.rho J).sem) :
    (f.rho I).sem = (f.rho J).sem ∧ (f.drho I).sem = (f.drho J).sem := by
  cases f with
  | atom a => exact ⟨h a (by simp [Fac.letters]), h a (by simp [Fac.letters])⟩
  | prod p =>
    have e := map_congr_left h
    simp only [Fac.letters] at e
    constructor
    · simp only [Fac.rho, PRep.rho, conjPerm, LinOp.sem, semL_map]
      rw [e]
    · simp only [Fac.drho, PRep.drho, conjPerm, LinOp.sem, semL_map, Atom.drho]
      rw [e]

theorem Fac.letters_G {f : Fac} (hf : f.WF W) : ∀ a ∈ f.letters, a.G = f.G := by
  intro a ha
  refine Fac.counter_G hf a ?_
  cases f with
  | atom b => simpa [Fac.letters, Fac.counter, Counter.keys] using ha
  | prod p => exact Counter.mem_expand ha

/-- The identity on every atom. -/
def idI (W : World) (R : Type) [CommRing R] : Interp R where
  vec k g := .eye (match g with | some g => W.asize k g | none => 0)
  dual k g := .eye (match g with | some g => W.asize k g | none => 0)

/-- Zero on every atom. -/
def zeroI (W : World) (R : Type) [CommRing R] : Interp R where
  vec k g := .lazy (match g with | some g => DMat.zero (W.asize k g) (W.asize k g) | none => DMat.zero 0 0)
  dual k g := .lazy (match g with | some g => DMat.zero (W.asize k g) (W.asize k g) | none => DMat.zero 0 0)

theorem idI_one : (idI W R).IsOne W := ⟨fun _ _ => rfl, fun _ _ => rfl⟩
theorem zeroI_sized : (zeroI W R).Sized W := ⟨fun _ _ => ⟨rfl, rfl⟩, fun _ _ => ⟨rfl, rfl⟩⟩

theorem DMat.lin_zero {n : ℕ} {A B : DMat R} (hA : A.IsSq n) : DMat.lin 0 0 A B = DMat.zero n n := by
  refine DMat.ext hA.1 hA.2 fun i j hi hj => ?_
  rw [lin_e (A := A) hi hj, zero_e]; ring

theorem zeroI_is : Interp.Is (DMat.lin (0 : R) 0) (zeroI W R) (zeroI W R) (zeroI W R) :=
  ⟨fun k g => (DMat.lin_zero (n := W.asize k g) ⟨rfl, rfl⟩).symm, fun k g => (DMat.lin_zero (n := W.asize k g) ⟨rfl, rfl⟩).symm⟩

theorem Fac.drho_zero {f : Fac} (hf : f.WF W) : (f.drho (zeroI W R)).sem = DMat.zero (f.size W) (f.size W) := by
  rw [Fac.drho_op (lin_compat 0 0) zeroI_sized zeroI_sized zeroI_is hf, DMat.lin_zero (Fac.drho_sq zeroI_sized hf)]

theorem Atom.rho_only_eq {a : Atom} {g : Gid} (ha : a.G = some g) (h : Interp R) : (a.rho (h.only W g)).sem = (a.rho h).sem := by
  cases a <;> simp only [Atom.G] at ha <;> subst ha <;> simp [Atom.rho, Interp.only]

theorem Atom.rho_onlyD_eq {a : Atom} {g : Gid} (ha : a.G = some g) (h : Interp R) : (a.rho (h.onlyD W g)).sem = (a.rho h).sem := by
  cases a <;> simp only [Atom.G] at ha <;> subst ha <;> simp [Atom.rho, Interp.onlyD]

theorem Atom.rho_only_ne {a : Atom} {g g' : Gid} (ha : a.G = some g') (hg : g' ≠ g) (h : Interp R) :
    (a.rho (h.only W g)).sem = (a.rho (idI W R)).sem := by
  cases a <;> simp only [Atom.G] at ha <;> subst ha <;> simp [Atom.rho, Interp.only, idI, hg]

theorem Atom.rho_onlyD_ne {a : Atom} {g g' : Gid} (ha : a.G = some g') (hg : g' ≠ g) (h : Interp R) :
    (a.rho (h.onlyD W g)).sem = (a.rho (zeroI W R)).sem := by
  cases a <;> simp only [Atom.G] at ha <;> subst ha <;> simp [Atom.rho, Interp.onlyD, zeroI, hg]

theorem Fac.rho_only_eq {f : Fac} (hf : f.WF W) {g : Gid} (hg : f.G = some g) (h : Interp R) :
    (f.rho (h.only W g)).sem = (f.rho h).sem :=
  (Fac.rho_congr fun a ha => Atom.rho_only_eq ((Fac.letters_G hf a ha).trans hg) h).1

theorem Fac.drho_onlyD_eq {f : Fac} (hf : f.WF W) {g : Gid} (hg : f.G = some g) (h : Interp R) :
    (f.drho (h.onlyD W g)).sem = (f.drho h).sem :=
  (Fac.rho_congr fun a ha => Atom.rho_onlyD_eq ((Fac.letters_G hf a ha).trans hg) h).2

theorem Fac.rho_only_ne {f : Fac} (hf : f.WF W) {g g' : Gid} (hg : f.G = some g') (hne : g' ≠ g) (h : Interp R) :
    (f.rho (h.only W g)).sem = DMat.one (f.size W) := by
  rw [(Fac.rho_congr fun a ha => Atom.rho_only_ne ((Fac.letters_G hf a ha).trans hg) hne h).1, Fac.rho_one idI_one hf]

theorem Fac.drho_onlyD_ne {f : Fac} (hf : f.WF W) {g g' : Gid} (hg : f.G = some g') (hne : g' ≠ g) (h : Interp R) :
    (f.drho (h.onlyD W g)).sem = DMat.zero (f.size W) (f.size W) := by
  rw [(Fac.rho_congr fun a ha => Atom.rho_onlyD_ne ((Fac.letters_G hf a ha).trans hg) hne h).2, Fac.drho_zero hf]

/-! ### `FixedBy` -/

theorem DMat.zero_mulVec (m n : ℕ) (v : List R) : (DMat.zero m n : DMat R).mulVec v = replicate m 0 := by
  refine vec_ext (by simp [DMat.zero]) fun i hi => ?_
  have hi' : i < m := by simpa [DMat.zero] using hi
  rw [getD_mulVec hi', getD_eq_getElem _ _ (by simpa), getElem_replicate]
  exact Finset.sum_eq_zero fun j _ => by rw [zero_e, zero_mul]

variable {gens : Gid → GenSet R}

theorem FixedBy.bdiag2 (hg : GenSet.Sized W gens) {m : ℕ} {M D M' D' : Interp R → DMat R} (hM : ∀ I, I.Sized W → (M I).IsSq m)
    (hD : ∀ I, I.Sized W → (D I).IsSq m) {v w : List R} (hv : v.length = m) :
    FixedBy W gens (fun I => DMat.bdiag2 (M I) (M' I)) (fun I => DMat.bdiag2 (D I) (D' I)) (v ++ w) ↔
      FixedBy W gens M D v ∧ FixedBy W gens M' D' w := by
  have e1 : ∀ g, ∀ h ∈ (gens g).disc, ((DMat.bdiag2 (M (h.only W g)) (M' (h.only W g))).mulVec (v ++ w) = v ++ w ↔
      (M (h.only W g)).mulVec v = v ∧ (M' (h.only W g)).mulVec w = w) := by
    intro g h hh
    have := hM _ (((hg g).1 h hh).only g)
    rw [mulVec_bdiag2 _ _ _ _ (by rw [this.2, hv])]
    exact ⟨fun h => append_inj h (by simp [this.1, hv]), fun ⟨h1, h2⟩ => by rw [h1, h2]⟩
  have e2 : ∀ g, ∀ h ∈ (gens g).lie, ((DMat.bdiag2 (D (h.onlyD W g)) (D' (h.onlyD W g))).mulVec (v ++ w) = replicate (v ++ w).length 0 ↔
      (D (h.onlyD W g)).mulVec v = replicate v.length 0 ∧ (D' (h.onlyD W g)).mulVec w = replicate w.length 0) := by
    intro g h hh
    have := hD _ (((hg g).2 h hh).onlyD g)
    rw [mulVec_bdiag2 _ _ _ _ (by rw [this.2, hv]), length_append, replicate_add]
    exact ⟨fun h => append_inj h (by simp [this.1, hv]), fun ⟨h1, h2⟩ => by rw [h1, h2]⟩
  simp only [FixedBy]
  constructor
  · intro h
    exact ⟨fun g => ⟨fun x hx => ((e1 g x hx).1 ((h g).1 x hx)).1, fun x hx => ((e2 g x hx).1 ((h g).2 x hx)).1⟩,
      fun g => ⟨fun x hx => ((e1 g x hx).1 ((h g).1 x hx)).2, fun x hx => ((e2 g x hx).1 ((h g).2 x hx)).2⟩⟩
  · rintro ⟨h1, h2⟩ g
    exact ⟨fun x hx => (e1 g x hx).2 ⟨(h1 g).1 x hx, (h2 g).1 x hx⟩, fun x hx => (e2 g x hx).2 ⟨(h1 g).2 x hx, (h2 g).2 x hx⟩⟩

theorem DMat.one_kron_mulVec {m n : ℕ} {A M : DMat R} (hA : A.IsSq n) (hr : M.rows = m) (hc : M.cols = n) :
    (DMat.kron (DMat.one m) A).mulVec M.flat = (A.mul M.transpose).transpose.flat := by
  rw [kron_mulVec_flat _ _ _ (by simp [hr, DMat.one]) (by rw [hA.2, hc]), one_mul' _ hr, DMat.transpose_mul _ _ (by simp [hA.2, hc]),
    transpose_transpose]

theorem DMat.kron_one_mulVec {m n : ℕ} {A M : DMat R} (hA : A.IsSq m) (hr : M.rows = m) (hc : M.cols = n) :
    (DMat.kron A (DMat.one n)).mulVec M.flat = (A.mul M).flat := by
  rw [kron_mulVec_flat _ _ _ (by rw [hA.2, hr]) (by simp [hc, DMat.one]), transpose_one, mul_one' _ (by simpa)]

theorem DMat.flat_zero (m n : ℕ) : (DMat.zero m n : DMat R).flat = replicate (m * n) 0 := by
  refine vec_ext (by simp [length_flat, DMat.zero]) fun i hi => ?_
  have hi : i < m * n := by simpa [length_flat, DMat.zero] using hi
  obtain ⟨a, b, ha, hb, rfl⟩ := exists_mul_add hi
  have := getD_flat (DMat.zero m n : DMat R) (i := a) (j := b) ha hb
  rw [show (DMat.zero m n : DMat R).cols = n from rfl] at this
  rw [this, getD_eq_getElem _ _ (by simpa), getElem_replicate, zero_e]

theorem DMat.col_zero (m n j : ℕ) : (DMat.zero m n : DMat R).col j = replicate m 0 := by
  refine vec_ext (by simp [DMat.zero]) fun i hi => ?_
  have hi : i < m := by simpa [DMat.zero] using hi
  rw [getD_col _ hi, getD_eq_getElem _ _ (by simpa), getElem_replicate, zero_e]

/-- The two ways `A` can act on one leg of a tensor product. -/
theorem DMat.kron_one_fix {m n : ℕ} {A M : DMat R} (hA : A.IsSq m) (hr : M.rows = m) (hc : M.cols = n) :
    (DMat.kron A (DMat.one n)).mulVec M.flat = M.flat ↔ ∀ j < n, A.mulVec (M.col j) = M.col j := by
  rw [kron_one_mulVec hA hr hc, ← hc, ← mul_eq_iff_col _ _ _ (by rw [hA.2, hr]) (by rw [hA.1, hr]) rfl]
  exact ⟨fun h => flat_inj (by simp [hA.1, hr]) (by simp) h, fun h => by rw [h]⟩

theorem DMat.kron_one_kill {m n : ℕ} {A M : DMat R} (hA : A.IsSq m) (hr : M.rows = m) (hc : M.cols = n) :
    (DMat.kron A (DMat.one n)).mulVec M.flat = replicate (m * n) 0 ↔ ∀ j < n, A.mulVec (M.col j) = replicate m 0 := by
  have h0 : ∀ j, (DMat.zero m n : DMat R).col j = replicate m 0 := fun j => col_zero m n j
  rw [kron_one_mulVec hA hr hc, ← flat_zero]
  have := mul_eq_iff_col A M (DMat.zero m n) (by rw [hA.2, hr]) (by rw [hA.1]; rfl) hc
  rw [hc] at this
  simp only [h0] at this
  rw [← this]
  exact ⟨fun h => flat_inj (by simp [hA.1, DMat.zero]) (by simp [hc, DMat.zero]) h, fun h => by rw [h]⟩

theorem DMat.one_kron_fix {m n : ℕ} {A M : DMat R} (hA : A.IsSq n) (hr : M.rows = m) (hc : M.cols = n) :
    (DMat.kron (DMat.one m) A).mulVec M.flat = M.flat ↔ ∀ i < m, A.mulVec (M.transpose.col i) = M.transpose.col i := by
  have := mul_eq_iff_col A M.transpose M.transpose (by simp [hA.2, hc]) (by simp [hA.1, hc]) rfl
  rw [transpose_cols, hr] at this
  rw [one_kron_mulVec hA hr hc, ← this]
  constructor
  · intro h
    have := flat_inj (M := (A.mul M.transpose).transpose) (N := M) (by simp) (by simp [hA.1, hc]) h
    rw [← transpose_transpose (A.mul M.transpose), this]
  · intro h; rw [h, transpose_transpose]

theorem DMat.transpose_zero (m n : ℕ) : (DMat.zero m n : DMat R).transpose = DMat.zero n m :=
  DMat.ext rfl rfl fun i j _ _ => by rw [transpose_e, zero_e, zero_e]

theorem DMat.one_kron_kill {m n : ℕ} {A M : DMat R} (hA : A.IsSq n) (hr : M.rows = m) (hc : M.cols = n) :
    (DMat.kron (DMat.one m) A).mulVec M.flat = replicate (m * n) 0 ↔ ∀ i < m, A.mulVec (M.transpose.col i) = replicate n 0 := by
  have h0 : ∀ j, (DMat.zero n m : DMat R).col j = replicate n 0 := fun j => col_zero n m j
  have := mul_eq_iff_col A M.transpose (DMat.zero n m) (by simp [hA.2, hc]) (by rw [hA.1]; rfl) (by simp [hr, DMat.zero])
  rw [transpose_cols, hr] at this
  simp only [h0] at this
  rw [one_kron_mulVec hA hr hc, ← this, ← flat_zero]
  constructor
  · intro h
    have := flat_inj (M := (A.mul M.transpose).transpose) (N := DMat.zero m n) (by simp [hr, DMat.zero]) (by simp [hA.1, DMat.zero]) h
    rw [← transpose_transpose (A.mul M.transpose), this, transpose_zero]
  · intro h; rw [h, transpose_zero]

theorem DMat.kronsum_zero_right {m n : ℕ} {A : DMat R} (hA : A.IsSq m) : kronsum A (DMat.zero n n) = kron A (DMat.one n) := by
  refine kron_ext (m := m) (n := n) (m' := m) (n' := n) (by simp [hA.1, DMat.zero]) (by simp [hA.2, DMat.zero]) (by simp [hA.1, DMat.one])
    (by simp [hA.2, DMat.one]) fun i i' j j' hi hi' hj hj' => ?_
  rw [kronsum_e (n := n) hA ⟨rfl, rfl⟩ hi hi' hj hj']
  have e := kron_e (A := A) (B := (DMat.one n : DMat R)) (i := i) (j := j) (i' := i') (j' := j') (by rwa [hA.1]) (by rwa [hA.2]) hi' hj'
  rw [show (DMat.one n : DMat R).rows = n from rfl, show (DMat.one n : DMat R).cols = n from rfl] at e
  rw [e, one_e hi' hj', zero_e]
  simp

theorem DMat.kronsum_zero_left {m n : ℕ} {A : DMat R} (hA : A.IsSq n) : kronsum (DMat.zero m m) A = kron (DMat.one m) A := by
  refine kron_ext (m := m) (n := n) (m' := m) (n' := n) (by simp [hA.1, DMat.zero]) (by simp [hA.1, DMat.zero]) (by simp [hA.1, DMat.one])
    (by simp [hA.2, DMat.one]) fun i i' j j' hi hi' hj hj' => ?_
  rw [kronsum_e (m := m) ⟨rfl, rfl⟩ hA hi hi' hj hj']
  have e := kron_e (A := (DMat.one m : DMat R)) (B := A) (i := i) (j := j) (i' := i') (j' := j') hi hj (by rwa [hA.1]) (by rwa [hA.2])
  rw [hA.1, hA.2] at e
  rw [e, one_e hi hj, zero_e]
  simp

/-- Tensor products, when every group acts trivially on one of the legs. -/
theorem FixedBy.kron (hg : GenSet.Sized W gens) {m n : ℕ} {M D M' D' : Interp R → DMat R}
    (hM : ∀ I, I.Sized W → (M I).IsSq m) (hD : ∀ I, I.Sized W → (D I).IsSq m)
    (hM' : ∀ I, I.Sized W → (M' I).IsSq n) (hD' : ∀ I, I.Sized W → (D' I).IsSq n)
    (htriv : ∀ g, ((∀ h ∈ (gens g).disc, M (h.only W g) = DMat.one m) ∧ ∀ A ∈ (gens g).lie, D (A.onlyD W g) = DMat.zero m m) ∨
      ((∀ h ∈ (gens g).disc, M' (h.only W g) = DMat.one n) ∧ ∀ A ∈ (gens g).lie, D' (A.onlyD W g) = DMat.zero n n))
    {N : DMat R} (hr : N.rows = m) (hc : N.cols = n) :
    FixedBy W gens (fun I => DMat.kron (M I) (M' I)) (fun I => kronsum (D I) (D' I)) N.flat ↔
      (∀ j < n, FixedBy W gens M D (N.col j)) ∧ ∀ i < m, FixedBy W gens M' D' (N.transpose.col i) := by
  have hl : N.flat.length = m * n := by rw [length_flat, hr, hc]
  have lc : ∀ j, (N.col j).length = m := fun j => by simp [hr]
  have lr : ∀ j, (N.transpose.col j).length = n := fun j => by simp [hc]
  have e1 : ∀ g, ∀ h ∈ (gens g).disc, ((DMat.kron (M (h.only W g)) (M' (h.only W g))).mulVec N.flat = N.flat ↔
      (∀ j < n, (M (h.only W g)).mulVec (N.col j) = N.col j) ∧ ∀ i < m, (M' (h.only W g)).mulVec (N.transpose.col i) = N.transpose.col i) := by
    intro g h hh
    have s1 := hM _ (((hg g).1 h hh).only g)
    have s2 := hM' _ (((hg g).1 h hh).only g)
    rcases htriv g with t | t
    · rw [t.1 h hh, one_kron_fix s2 hr hc]
      exact ⟨fun x => ⟨fun j _ => mulVec_one _ (lc j), x⟩, fun x => x.2⟩
    · rw [t.1 h hh, kron_one_fix s1 hr hc]
      exact ⟨fun x => ⟨x, fun j _ => mulVec_one _ (lr j)⟩, fun x => x.1⟩
  have e2 : ∀ g, ∀ h ∈ (gens g).lie, ((kronsum (D (h.onlyD W g)) (D' (h.onlyD W g))).mulVec N.flat = replicate (m * n) 0 ↔
      (∀ j < n, (D (h.onlyD W g)).mulVec (N.col j) = replicate m 0) ∧ ∀ i < m, (D' (h.onlyD W g)).mulVec (N.transpose.col i) = replicate n 0) := by
    intro g h hh
    have s1 := hD _ (((hg g).2 h hh).onlyD g)
    have s2 := hD' _ (((hg g).2 h hh).onlyD g)
    rcases htriv g with t | t
    · rw [t.2 h hh, kronsum_zero_left s2, one_kron_kill s2 hr hc]
      exact ⟨fun x => ⟨fun j _ => zero_mulVec _ _ _, x⟩, fun x => x.2⟩
    · rw [t.2 h hh, kronsum_zero_right s1, kron_one_kill s1 hr hc]
      exact ⟨fun x => ⟨x, fun j _ => zero_mulVec _ _ _⟩, fun x => x.1⟩
  simp only [FixedBy, hl, lc, lr]
  constructor
  · intro h
    exact ⟨fun j hj g => ⟨fun x hx => ((e1 g x hx).1 ((h g).1 x hx)).1 j hj, fun x hx => ((e2 g x hx).1 ((h g).2 x hx)).1 j hj⟩,
      fun j hj g => ⟨fun x hx => ((e1 g x hx).1 ((h g).1 x hx)).2 j hj, fun x hx => ((e2 g x hx).1 ((h g).2 x hx)).2 j hj⟩⟩
  · rintro ⟨h1, h2⟩ g
    exact ⟨fun x hx => (e1 g x hx).2 ⟨fun j hj => (h1 j hj g).1 x hx, fun j hj => (h2 j hj g).1 x hx⟩,
      fun x hx => (e2 g x hx).2 ⟨fun j hj => (h1 j hj g).2 x hx, fun j hj => (h2 j hj g).2 x hx⟩⟩

theorem conj_fix {n : ℕ} {p : List ℕ} (hp : p ~ range n) {A : DMat R} (hA : A.IsSq n) {v : List R} (hv : v.length = n) :
    (((permMat (argsort p)).mul A).mul (permMat p)).mulVec v = v ↔ A.mulVec ((permMat p).mulVec v) = (permMat p).mulVec v := by
  have hl := length_of_perm_range hp
  have hla := length_of_perm_range (hl ▸ argsort_perm p : argsort p ~ range n)
  have i1 : (permMat p : DMat R).mul (permMat (argsort p)) = DMat.one n := permMat_mul_argsort hp
  have i3 : (permMat (argsort p) : DMat R).mul (permMat p) = DMat.one n :=
    DMat.mul_eq_one_comm ⟨by simp [hl], by simp [hl]⟩ ⟨by simp [hla], by simp [hla]⟩ i1
  rw [mulVec_mul _ _ _ (by simp [hA.2, hl]), mulVec_mul _ _ _ (by simp [hA.1, hla])]
  constructor
  · intro e
    have := congrArg (permMat p).mulVec e
    rwa [← mulVec_mul _ _ _ (by simp [hl, hla]), i1, mulVec_one _ (by simp [hA.1])] at this
  · intro e
    rw [e, ← mulVec_mul _ _ _ (by simp [hl, hla]), i3, mulVec_one _ hv]

theorem DMat.mulVec_replicate_zero (A : DMat R) (n : ℕ) : A.mulVec (replicate n 0) = replicate A.rows 0 := by
  refine vec_ext (by simp) fun i hi => ?_
  have hi : i < A.rows := by simpa using hi
  rw [getD_mulVec hi, getD_eq_getElem _ _ (by simpa), getElem_replicate]
  refine Finset.sum_eq_zero fun j _ => ?_
  by_cases h : j < n
  · rw [getD_eq_getElem _ _ (by simpa), getElem_replicate, mul_zero]
  · rw [getD_eq_default _ _ (by simpa using h), mul_zero]

theorem conj_kill {n : ℕ} {p : List ℕ} (hp : p ~ range n) {A : DMat R} (hA : A.IsSq n) {v : List R} :
    (((permMat (argsort p)).mul A).mul (permMat p)).mulVec v = replicate n 0 ↔ A.mulVec ((permMat p).mulVec v) = replicate n 0 := by
  have hl := length_of_perm_range hp
  have hla := length_of_perm_range (hl ▸ argsort_perm p : argsort p ~ range n)
  have i1 : (permMat p : DMat R).mul (permMat (argsort p)) = DMat.one n := permMat_mul_argsort hp
  rw [mulVec_mul _ _ _ (by simp [hA.2, hl]), mulVec_mul _ _ _ (by simp [hA.1, hla])]
  constructor
  · intro e
    have := congrArg (permMat p).mulVec e
    rwa [← mulVec_mul _ _ _ (by simp [hl, hla]), i1, mulVec_one _ (by simp [hA.1]), mulVec_replicate_zero, permMat_rows, hl] at this
  · intro e
    rw [e, mulVec_replicate_zero, permMat_rows, hla]

theorem FixedBy.conj (hg : GenSet.Sized W gens) {n : ℕ} {p : List ℕ} (hp : p ~ range n) {M D : Interp R → LinOp R}
    (hM : ∀ I, I.Sized W → (M I).sem.IsSq n) (hD : ∀ I, I.Sized W → (D I).sem.IsSq n) {v : List R} (hv : v.length = n) :
    FixedBy W gens (fun I => (conjPerm p (M I)).sem) (fun I => (conjPerm p (D I)).sem) v ↔
      FixedBy W gens (fun I => (M I).sem) (fun I => (D I).sem) ((permMat p).mulVec v) := by
  have hl := length_of_perm_range hp
  have hv' : ((permMat p).mulVec v).length = n := by simp [hl]
  simp only [FixedBy, hv, hv', conjPerm, LinOp.sem]
  exact forall_congr' fun g => and_congr
    (forall₂_congr fun h hh => conj_fix hp (hM _ (((hg g).1 h hh).only g)) hv)
    (forall₂_congr fun h hh => conj_kill hp (hD _ (((hg g).2 h hh).onlyD g)))

end Verif
