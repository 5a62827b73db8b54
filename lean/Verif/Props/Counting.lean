import Verif.Spec.Count
import Verif.Lemmas.Counting
import Verif.Props.Determinant
import Verif.Props.MultiLayers
import Verif.Lemmas.Frame
import Verif.Props.HamiltonianNets

/-! # C132: rules for counting the elements of a basis -/
namespace Verif
open List

/-! ## Fixed vectors of sums and products -/
section
variable {ι : Type} {G : ι → Prop} {m n : ℕ} {Q Q1 Q2 : DMat ℝ} {A B M : ι → DMat ℝ}

/-- the vectors of length `n` fixed by the matrices `M h` for `h` in `G` -/
def FixedUnder (G : ι → Prop) (n : ℕ) (M : ι → DMat ℝ) (v : List ℝ) : Prop := v.length = n ∧ ∀ h, G h → (M h).mulVec v = v

theorem cols_congr (h : OrthoBasis n Q (FixedUnder G n M)) (h' : OrthoBasis n Q1 (FixedUnder G n A)) (e : ∀ h, G h → M h = A h) : Q.cols = Q1.cols :=
  h.cols_equiv h' (LinearEquiv.refl ℝ _) fun v => and_congr Iff.rfl (forall₂_congr fun x hx => by rw [e x hx]; rfl)

theorem cols_bdiag (h : OrthoBasis (m + n) Q (FixedUnder G (m + n) M)) (h1 : OrthoBasis m Q1 (FixedUnder G m A)) (h2 : OrthoBasis n Q2 (FixedUnder G n B))
    (hA : ∀ h, G h → (A h).IsSq m) (e : ∀ h, G h → M h = DMat.bdiag2 (A h) (B h)) : Q.cols = Q1.cols + Q2.cols := by
  refine h.cols_prod h1 h2 (splitFin m n) fun v => ?_
  have key : ∀ x, G x → ((M x).mulVec (List.ofFn v) = List.ofFn v ↔ (A x).mulVec (List.ofFn (splitFin m n v).1) = List.ofFn (splitFin m n v).1 ∧
      (B x).mulVec (List.ofFn (splitFin m n v).2) = List.ofFn (splitFin m n v).2) := fun x hx => by
    rw [e x hx, ofFn_splitFin, DMat.mulVec_bdiag2 _ _ _ _ (by rw [(hA x hx).2, List.length_ofFn])]
    exact ⟨fun h => List.append_inj h (by rw [DMat.length_mulVec, (hA x hx).1, List.length_ofFn]), fun h => by rw [h.1, h.2]⟩
  constructor
  · rintro ⟨-, hf⟩
    exact ⟨⟨by simp, fun x hx => ((key x hx).1 (hf x hx)).1⟩, by simp, fun x hx => ((key x hx).1 (hf x hx)).2⟩
  · rintro ⟨⟨-, h1⟩, -, h2⟩
    exact ⟨by simp, fun x hx => (key x hx).2 ⟨h1 x hx, h2 x hx⟩⟩

theorem cols_swap (h : OrthoBasis (m * n) Q (FixedUnder G (m * n) fun x => DMat.kron (A x) (B x)))
    (h' : OrthoBasis (n * m) Q1 (FixedUnder G (n * m) fun x => DMat.kron (B x) (A x)))
    (hA : ∀ h, G h → (A h).IsSq m) (hB : ∀ h, G h → (B h).IsSq n) : Q.cols = Q1.cols := by
  refine h.cols_equiv h' (swapFin m n) fun v => ?_
  refine and_congr (by simp) (forall₂_congr fun x hx => ?_)
  have a := hA x hx
  have b := hB x hx
  rw [← matFin_flat v, ← matFin_flat (swapFin m n v), matFin_swap, DMat.kron_mulVec_flat _ _ _ (by rw [a.2]; rfl) (by rw [b.2]; rfl),
    DMat.kron_mulVec_flat _ _ _ (by rw [b.2]; rfl) (by rw [a.2]; rfl)]
  have e : ((B x).mul (matFin m n v).transpose).mul (A x).transpose = (((A x).mul (matFin m n v)).mul (B x).transpose).transpose := by
    rw [DMat.transpose_mul _ _ (by rw [DMat.mul_cols, DMat.transpose_rows, b.2]; rfl), DMat.transpose_transpose, DMat.transpose_mul _ _ (by rw [a.2]; rfl),
      DMat.mul_assoc' _ _ _ (by rw [b.2]; rfl)]
  rw [e]
  constructor
  · intro h
    rw [DMat.flat_inj (M := ((A x).mul (matFin m n v)).mul (B x).transpose) (N := matFin m n v) (by rw [DMat.mul_rows, DMat.mul_rows, a.1]; rfl)
      (by rw [DMat.mul_cols, DMat.transpose_cols, b.1]; rfl) h]
  · intro h
    have := DMat.flat_inj (M := (((A x).mul (matFin m n v)).mul (B x).transpose).transpose) (N := (matFin m n v).transpose)
      (by rw [DMat.transpose_rows, DMat.mul_cols, DMat.transpose_cols, b.1]; rfl) (by rw [DMat.transpose_cols, DMat.mul_rows, DMat.mul_rows, a.1]; rfl) h
    rw [← DMat.transpose_transpose (((A x).mul (matFin m n v)).mul (B x).transpose), this, DMat.transpose_transpose]

end

section
variable {W : World} {g : Gid} {N : ℕ} {custom : ∀ k g, AtomRep ℝ (W.d g) (W.usize k g)} {lie disc lie' disc' : ∀ g, List (Matrix (Fin (W.d g)) (Fin (W.d g)) ℝ)}
  {solve solve' : ℕ → LinOp ℝ → Py (DMat ℝ)}

/-- the vectors of `e` that the group fixes -/
def Expr.Inv (W : World) (g : Gid) (custom : ∀ k g, AtomRep ℝ (W.d g) (W.usize k g)) (lie disc : ∀ g, List (Matrix (Fin (W.d g)) (Fin (W.d g)) ℝ)) (e : Expr) :
    List ℝ → Prop := FixedUnder (Generated (lie g) (disc g)) (e.dim W g) fun h => (e.den g (Interp.elem W custom g h)).1

variable (hW : W.SingleOK g N) (ok : GroupsOK W custom lie disc)
  (hsol : SolverOK W (gensOf W (stdAtoms W custom) lie disc) solve) (htot : SolverRuns W (gensOf W (stdAtoms W custom) lie disc) solve)
include hW ok hsol htot

theorem exists_basis {e : Expr} (he : e.OK W g) (hN : e.bound W g ≤ N) : ∃ Q, OrthoBasis (e.dim W g) Q (e.Inv W g custom lie disc) := by
  obtain ⟨-, L, -, -, h⟩ := basis_of_group hW e he hN ok hsol htot []
  exact ⟨_, h⟩

theorem columns_iff {e : Expr} (he : e.OK W g) (hN : e.bound W g ≤ N) {Q : DMat ℝ} (hQ : OrthoBasis (e.dim W g) Q (e.Inv W g custom lie disc)) {c : ℕ} :
    Columns W g (gensOf W (stdAtoms W custom) lie disc) solve e c ↔ Q.cols = c := by
  constructor
  · intro h
    obtain ⟨r, L, hr, hL, rfl⟩ := h []
    obtain ⟨r', L', hr', hL', h'⟩ := basis_of_group hW e he hN ok hsol htot []
    rw [hr] at hr'
    cases hr'
    rw [hL] at hL'
    cases hL'
    exact hQ.cols_equiv h' (LinearEquiv.refl ℝ _) fun v => Iff.rfl
  · rintro rfl calls
    obtain ⟨r, L, hr, hL, h⟩ := basis_of_group hW e he hN ok hsol htot calls
    exact ⟨r, L, hr, hL, h.cols_equiv hQ (LinearEquiv.refl ℝ _) fun v => Iff.rfl⟩

/-- **C132.** `equivariant_basis()` of every representation returns as many elements as the space of its vectors that the group fixes has dimensions. -/
theorem C132_dimension {e : Expr} (he : e.OK W g) (hN : e.bound W g ≤ N) : ∃ S : Submodule ℝ (Fin (e.dim W g) → ℝ),
    (∀ v, v ∈ S ↔ ∀ h, Generated (lie g) (disc g) h → (e.den g (Interp.elem W custom g h)).1.mulVec (List.ofFn v) = List.ofFn v) ∧
    Columns W g (gensOf W (stdAtoms W custom) lie disc) solve e (Module.finrank ℝ S) := by
  obtain ⟨Q, hQ⟩ := exists_basis hW ok hsol htot he hN
  obtain ⟨L, hL, hv⟩ := hQ.exists_map
  refine ⟨LinearMap.range L, fun v => ?_, ?_⟩
  · rw [LinearMap.mem_range, ← hv]
    exact ⟨fun h => h.2, fun h => ⟨by simp, h⟩⟩
  · rw [columns_iff hW ok hsol htot he hN hQ, LinearMap.finrank_range_of_inj hL, Module.finrank_fin_fun]

variable {a b c : Expr} {m n : ℕ}

/-- **C132.** For a direct sum the numbers add up. -/
theorem C132_sum (ha : a.OK W g) (hb : b.OK W g) (hN : (Expr.add a b).bound W g ≤ N)
    (h1 : Columns W g (gensOf W (stdAtoms W custom) lie disc) solve a m) (h2 : Columns W g (gensOf W (stdAtoms W custom) lie disc) solve b n) :
    Columns W g (gensOf W (stdAtoms W custom) lie disc) solve (.add a b) (m + n) := by
  obtain ⟨Q, hQ⟩ := exists_basis hW ok hsol htot (e := .add a b) ⟨ha, hb⟩ hN
  have na : a.bound W g ≤ N := (le_max_left _ _).trans hN
  have nb : b.bound W g ≤ N := (le_max_right _ _).trans hN
  obtain ⟨Q1, hQ1⟩ := exists_basis hW ok hsol htot ha na
  obtain ⟨Q2, hQ2⟩ := exists_basis hW ok hsol htot hb nb
  rw [columns_iff hW ok hsol htot ha na hQ1] at h1
  rw [columns_iff hW ok hsol htot hb nb hQ2] at h2
  rw [columns_iff hW ok hsol htot (e := .add a b) ⟨ha, hb⟩ hN hQ, ← h1, ← h2]
  refine cols_bdiag hQ hQ1 hQ2 (fun h hh => (a.den_pair (elem_dual ok hh)).sq1) fun h hh => ?_
  show DMat.bdiag [_, _] = _
  rw [DMat.bdiag, DMat.bdiag_singleton]

/-- **C132.** `n*a` has `n` times as many elements as `a`. -/
theorem C132_multiple (k : ℕ) (hk : 0 < k) (ha : a.OK W g) (hN : a.bound W g ≤ N)
    (h1 : Columns W g (gensOf W (stdAtoms W custom) lie disc) solve a m) :
    Columns W g (gensOf W (stdAtoms W custom) lie disc) solve (.nsmul k a) (k * m) := by
  obtain ⟨Q1, hQ1⟩ := exists_basis hW ok hsol htot ha hN
  rw [columns_iff hW ok hsol htot ha hN hQ1] at h1
  induction k, hk using Nat.le_induction with
  | base =>
    obtain ⟨Q, hQ⟩ := exists_basis hW ok hsol htot (e := .nsmul 1 a) ⟨one_pos, ha⟩ hN
    rw [columns_iff hW ok hsol htot (e := .nsmul 1 a) ⟨one_pos, ha⟩ hN hQ, ← h1, Nat.succ_mul, Nat.zero_mul, zero_add]
    unfold Expr.Inv at hQ
    rw [show (Expr.nsmul 1 a).dim W g = a.dim W g by simp [Expr.dim]] at hQ
    refine cols_congr hQ hQ1 fun h _ => ?_
    show DMat.bdiag [_] = _
    rw [DMat.bdiag_singleton]
  | succ k hk ih =>
    obtain ⟨Q, hQ⟩ := exists_basis hW ok hsol htot (e := .nsmul (k + 1) a) ⟨by omega, ha⟩ hN
    obtain ⟨Q', hQ'⟩ := exists_basis hW ok hsol htot (e := .nsmul k a) ⟨hk, ha⟩ hN
    rw [columns_iff hW ok hsol htot (e := .nsmul k a) ⟨hk, ha⟩ hN hQ'] at ih
    rw [columns_iff hW ok hsol htot (e := .nsmul (k + 1) a) ⟨by omega, ha⟩ hN hQ, show (k + 1) * m = m + k * m by ring, ← ih, ← h1]
    unfold Expr.Inv at hQ
    rw [show (Expr.nsmul (k + 1) a).dim W g = a.dim W g + (Expr.nsmul k a).dim W g by simp [Expr.dim]; ring] at hQ
    exact cols_bdiag hQ hQ1 hQ' (fun h hh => (a.den_pair (elem_dual ok hh)).sq1) fun h hh => rfl

/-- **C132.** Adding the integer `k`, on either side, adds `k` elements. -/
theorem C132_integer (k : ℕ) (ha : a.OK W g) (hN : a.bound W g ≤ N) (h1 : Columns W g (gensOf W (stdAtoms W custom) lie disc) solve a m) :
    Columns W g (gensOf W (stdAtoms W custom) lie disc) solve (.addNat a k) (m + k) ∧
    Columns W g (gensOf W (stdAtoms W custom) lie disc) solve (.natAdd k a) (m + k) := by
  obtain ⟨Q1, hQ1⟩ := exists_basis hW ok hsol htot ha hN
  rw [columns_iff hW ok hsol htot ha hN hQ1] at h1
  have h0 : OrthoBasis k (DMat.one k) (FixedUnder (Generated (lie g) (disc g)) k fun _ => DMat.one k) :=
    ⟨rfl, by rw [conjTranspose_real, DMat.transpose_one, DMat.one_mul' (n := k) _ rfl]; rfl, fun v hv => ⟨fun _ => ⟨v, hv, DMat.mulVec_one _ hv⟩, fun _ => ⟨hv, fun _ _ => DMat.mulVec_one _ hv⟩⟩⟩
  constructor
  · obtain ⟨Q, hQ⟩ := exists_basis hW ok hsol htot (e := .addNat a k) ha hN
    rw [columns_iff hW ok hsol htot (e := .addNat a k) ha hN hQ, ← h1]
    refine cols_bdiag hQ hQ1 h0 (fun h hh => (a.den_pair (elem_dual ok hh)).sq1) fun h hh => ?_
    show DMat.bdiag [_, _] = _
    rw [DMat.bdiag, DMat.bdiag_singleton]
  · obtain ⟨Q, hQ⟩ := exists_basis hW ok hsol htot (e := .natAdd k a) ha hN
    rw [columns_iff hW ok hsol htot (e := .natAdd k a) ha hN hQ, ← h1, add_comm]
    unfold Expr.Inv at hQ
    rw [show (Expr.natAdd k a).dim W g = k + a.dim W g by simp [Expr.dim, add_comm]] at hQ
    refine cols_bdiag hQ h0 hQ1 (fun h hh => ⟨rfl, rfl⟩) fun h hh => ?_
    show DMat.bdiag [_, _] = _
    rw [DMat.bdiag, DMat.bdiag_singleton]

/-- **C132.** The order of the factors of a product does not matter. -/
theorem C132_swap (ha : a.OK W g) (hb : b.OK W g) (hN : (Expr.mul a b).bound W g ≤ N)
    (h1 : Columns W g (gensOf W (stdAtoms W custom) lie disc) solve (.mul a b) m) : Columns W g (gensOf W (stdAtoms W custom) lie disc) solve (.mul b a) m := by
  have hN' : (Expr.mul b a).bound W g ≤ N := by simpa [Expr.bound, mul_comm, max_comm, and_comm] using hN
  obtain ⟨Q, hQ⟩ := exists_basis hW ok hsol htot (e := .mul a b) ⟨ha, hb⟩ hN
  obtain ⟨Q1, hQ1⟩ := exists_basis hW ok hsol htot (e := .mul b a) ⟨hb, ha⟩ hN'
  rw [columns_iff hW ok hsol htot (e := .mul a b) ⟨ha, hb⟩ hN hQ] at h1
  rw [columns_iff hW ok hsol htot (e := .mul b a) ⟨hb, ha⟩ hN' hQ1, ← h1]
  exact (cols_swap hQ hQ1 (fun h hh => (a.den_pair (elem_dual ok hh)).sq1) fun h hh => (b.den_pair (elem_dual ok hh)).sq1).symm

/-- **C132.** Products distribute over sums, on both sides. -/
theorem C132_distributes (ha : a.OK W g) (hb : b.OK W g) (hc : c.OK W g) (hN : (Expr.mul (.add a b) c).bound W g ≤ N)
    (h1 : Columns W g (gensOf W (stdAtoms W custom) lie disc) solve (.mul a c) m) (h2 : Columns W g (gensOf W (stdAtoms W custom) lie disc) solve (.mul b c) n) :
    Columns W g (gensOf W (stdAtoms W custom) lie disc) solve (.mul (.add a b) c) (m + n) ∧
    Columns W g (gensOf W (stdAtoms W custom) lie disc) solve (.mul c (.add a b)) (m + n) := by
  have key : Columns W g (gensOf W (stdAtoms W custom) lie disc) solve (.mul (.add a b) c) (m + n) := by
    have nn := hN
    simp only [Expr.bound, Expr.dim, add_mul] at nn
    have na : (Expr.mul a c).bound W g ≤ N := by simp only [Expr.bound]; omega
    have nb : (Expr.mul b c).bound W g ≤ N := by simp only [Expr.bound]; omega
    obtain ⟨Q, hQ⟩ := exists_basis hW ok hsol htot (e := .mul (.add a b) c) ⟨⟨ha, hb⟩, hc⟩ hN
    obtain ⟨Q1, hQ1⟩ := exists_basis hW ok hsol htot (e := .mul a c) ⟨ha, hc⟩ na
    obtain ⟨Q2, hQ2⟩ := exists_basis hW ok hsol htot (e := .mul b c) ⟨hb, hc⟩ nb
    rw [columns_iff hW ok hsol htot (e := .mul a c) ⟨ha, hc⟩ na hQ1] at h1
    rw [columns_iff hW ok hsol htot (e := .mul b c) ⟨hb, hc⟩ nb hQ2] at h2
    rw [columns_iff hW ok hsol htot (e := .mul (.add a b) c) ⟨⟨ha, hb⟩, hc⟩ hN hQ, ← h1, ← h2]
    unfold Expr.Inv at hQ
    rw [show (Expr.mul (.add a b) c).dim W g = (Expr.mul a c).dim W g + (Expr.mul b c).dim W g by simp [Expr.dim, add_mul]] at hQ
    refine cols_bdiag hQ hQ1 hQ2 (fun h hh => ((Expr.mul a c).den_pair (elem_dual ok hh)).sq1) fun h hh => ?_
    show DMat.kron (DMat.bdiag [_, _]) _ = _
    rw [DMat.bdiag, DMat.bdiag_singleton, DMat.kron_bdiag2]
    rfl
  exact ⟨key, C132_swap hW ok hsol htot (a := .add a b) ⟨ha, hb⟩ hc hN key⟩

/-- `a >> b` is `b * a.T`. -/
theorem columns_rshift (ha : a.OK W g) (hb : b.OK W g) (hN : (Expr.rshift a b).bound W g ≤ N) :
    Columns W g (gensOf W (stdAtoms W custom) lie disc) solve (.rshift a b) m ↔ Columns W g (gensOf W (stdAtoms W custom) lie disc) solve (.mul b (.dual a)) m := by
  have hN' : (Expr.mul b (.dual a)).bound W g ≤ N := by simp only [Expr.bound, Expr.dim] at hN ⊢; omega
  obtain ⟨Q, hQ⟩ := exists_basis hW ok hsol htot (e := .rshift a b) ⟨ha, hb⟩ hN
  rw [columns_iff hW ok hsol htot (e := .rshift a b) ⟨ha, hb⟩ hN hQ]
  exact (columns_iff hW ok hsol htot (e := .mul b (.dual a)) ⟨hb, ha⟩ hN' hQ).symm

/-- **C132.** The numbers of equivariant maps from a sum, and into a sum, add up. -/
theorem C132_maps (ha : a.OK W g) (hb : b.OK W g) (hc : c.OK W g) (hN : (Expr.rshift (.add a b) c).bound W g ≤ N) :
    (Columns W g (gensOf W (stdAtoms W custom) lie disc) solve (.rshift a c) m → Columns W g (gensOf W (stdAtoms W custom) lie disc) solve (.rshift b c) n →
      Columns W g (gensOf W (stdAtoms W custom) lie disc) solve (.rshift (.add a b) c) (m + n)) ∧
    (Columns W g (gensOf W (stdAtoms W custom) lie disc) solve (.rshift c a) m → Columns W g (gensOf W (stdAtoms W custom) lie disc) solve (.rshift c b) n →
      Columns W g (gensOf W (stdAtoms W custom) lie disc) solve (.rshift c (.add a b)) (m + n)) := by
  have nn := hN
  simp only [Expr.bound, Expr.dim, mul_add] at nn
  have e1 := mul_comm (a.dim W g) (c.dim W g)
  have e2 := mul_comm (b.dim W g) (c.dim W g)
  have ca : (Expr.mul c (.dual a)).bound W g ≤ N := by simp only [Expr.bound, Expr.dim]; omega
  have cb : (Expr.mul c (.dual b)).bound W g ≤ N := by simp only [Expr.bound, Expr.dim]; omega
  have cab : (Expr.mul (.add (.dual a) (.dual b)) c).bound W g ≤ N := by simp only [Expr.bound, Expr.dim, add_mul]; omega
  have cab' : (Expr.mul (.add a b) (.dual c)).bound W g ≤ N := by simp only [Expr.bound, Expr.dim, add_mul]; omega
  have cd : (Expr.mul c (.add (.dual a) (.dual b))).bound W g ≤ N := by simp only [Expr.bound, Expr.dim, mul_add]; omega
  have cd' : (Expr.rshift c (.add a b)).bound W g ≤ N := by simp only [Expr.bound, Expr.dim, add_mul]; omega
  constructor
  · intro h1 h2
    rw [columns_rshift hW ok hsol htot ha hc (by simp only [Expr.bound]; omega)] at h1
    rw [columns_rshift hW ok hsol htot hb hc (by simp only [Expr.bound]; omega)] at h2
    have h3 := (C132_distributes hW ok hsol htot (a := .dual a) (b := .dual b) ha hb hc cab (C132_swap hW ok hsol htot (b := .dual a) hc ha ca h1)
      (C132_swap hW ok hsol htot (b := .dual b) hc hb cb h2)).2
    obtain ⟨Q, hQ⟩ := exists_basis hW ok hsol htot (e := .mul c (.add (.dual a) (.dual b))) ⟨hc, ha, hb⟩ cd
    rw [columns_iff hW ok hsol htot (e := .mul c (.add (.dual a) (.dual b))) ⟨hc, ha, hb⟩ cd hQ] at h3
    exact (columns_iff hW ok hsol htot (e := .rshift (.add a b) c) ⟨⟨ha, hb⟩, hc⟩ hN hQ).2 h3
  · intro h1 h2
    rw [columns_rshift hW ok hsol htot hc ha (by simp only [Expr.bound]; omega)] at h1
    rw [columns_rshift hW ok hsol htot hc hb (by simp only [Expr.bound]; omega)] at h2
    rw [columns_rshift hW ok hsol htot hc (b := .add a b) ⟨ha, hb⟩ cd']
    exact (C132_distributes hW ok hsol htot (c := .dual c) ha hb hc cab' h1 h2).1

/-- **C132.** As many equivariant maps lead from `a` to `b` as from the dual of `b` to the dual of `a`; for orthogonal groups, as from `b` to `a`, and a representation
has as many invariants as its dual. -/
theorem C132_transpose (ha : a.OK W g) (hb : b.OK W g) (hN : (Expr.rshift a b).bound W g ≤ N) :
    (Columns W g (gensOf W (stdAtoms W custom) lie disc) solve (.rshift a b) m →
      Columns W g (gensOf W (stdAtoms W custom) lie disc) solve (.rshift (.dual b) (.dual a)) m) ∧
    (W.orth g = true →
      (Columns W g (gensOf W (stdAtoms W custom) lie disc) solve (.rshift a b) m → Columns W g (gensOf W (stdAtoms W custom) lie disc) solve (.rshift b a) m) ∧
      (Columns W g (gensOf W (stdAtoms W custom) lie disc) solve a m → Columns W g (gensOf W (stdAtoms W custom) lie disc) solve (.dual a) m)) := by
  have e1 := mul_comm (a.dim W g) (b.dim W g)
  have nn := hN
  simp only [Expr.bound] at nn
  have n1 : (Expr.mul b (.dual a)).bound W g ≤ N := by simp only [Expr.bound, Expr.dim]; omega
  have n2 : (Expr.mul (.dual a) b).bound W g ≤ N := by simp only [Expr.bound, Expr.dim]; omega
  have n3 : (Expr.rshift (.dual b) (.dual a)).bound W g ≤ N := by simp only [Expr.bound, Expr.dim]; omega
  have n4 : (Expr.rshift b a).bound W g ≤ N := by simp only [Expr.bound]; omega
  have na : a.bound W g ≤ N := by omega
  have h0 : Columns W g (gensOf W (stdAtoms W custom) lie disc) solve (.rshift a b) m →
      Columns W g (gensOf W (stdAtoms W custom) lie disc) solve (.rshift (.dual b) (.dual a)) m := by
    intro h
    rw [columns_rshift hW ok hsol htot ha hb hN] at h
    have h2 := C132_swap hW ok hsol htot (b := .dual a) hb ha n1 h
    obtain ⟨Q, hQ⟩ := exists_basis hW ok hsol htot (e := .mul (.dual a) b) ⟨ha, hb⟩ n2
    rw [columns_iff hW ok hsol htot (e := .mul (.dual a) b) ⟨ha, hb⟩ n2 hQ] at h2
    exact (columns_iff hW ok hsol htot (e := .rshift (.dual b) (.dual a)) ⟨hb, ha⟩ n3 hQ).2 h2
  refine ⟨h0, fun ho => ⟨fun h => ?_, fun h => ?_⟩⟩
  · have h2 := h0 h
    obtain ⟨Q, hQ⟩ := exists_basis hW ok hsol htot (e := .rshift (.dual b) (.dual a)) ⟨hb, ha⟩ n3
    obtain ⟨Q1, hQ1⟩ := exists_basis hW ok hsol htot (e := .rshift b a) ⟨hb, ha⟩ n4
    rw [columns_iff hW ok hsol htot (e := .rshift (.dual b) (.dual a)) ⟨hb, ha⟩ n3 hQ] at h2
    rw [columns_iff hW ok hsol htot (e := .rshift b a) ⟨hb, ha⟩ n4 hQ1, ← h2]
    refine cols_congr hQ1 hQ fun h hh => ?_
    show DMat.kron (a.den g _).1 (b.den g _).2 = DMat.kron (a.den g _).2 (b.den g _).1
    rw [Expr.den_orth (elem_dual ok hh) ho a, Expr.den_orth (elem_dual ok hh) ho b]
  · obtain ⟨Q, hQ⟩ := exists_basis hW ok hsol htot ha na
    obtain ⟨Q1, hQ1⟩ := exists_basis hW ok hsol htot (e := .dual a) ha na
    rw [columns_iff hW ok hsol htot ha na hQ] at h
    rw [columns_iff hW ok hsol htot (e := .dual a) ha na hQ1, ← h]
    exact cols_congr hQ1 hQ fun h hh => (Expr.den_orth (elem_dual ok hh) ho a).symm

/-- **C132.** A larger group has at most as many invariants. -/
theorem C132_subgroup (ok' : GroupsOK W custom lie' disc') (hsol' : SolverOK W (gensOf W (stdAtoms W custom) lie' disc') solve')
    (htot' : SolverRuns W (gensOf W (stdAtoms W custom) lie' disc') solve') (hsub : ∀ h, Generated (lie g) (disc g) h → Generated (lie' g) (disc' g) h)
    (ha : a.OK W g) (hN : a.bound W g ≤ N) (h1 : Columns W g (gensOf W (stdAtoms W custom) lie disc) solve a m)
    (h2 : Columns W g (gensOf W (stdAtoms W custom) lie' disc') solve' a n) : n ≤ m ∧ m ≤ a.dim W g := by
  obtain ⟨Q1, hQ1⟩ := exists_basis hW ok hsol htot ha hN
  obtain ⟨Q2, hQ2⟩ := exists_basis hW ok' hsol' htot' ha hN
  rw [columns_iff hW ok hsol htot ha hN hQ1] at h1
  rw [columns_iff hW ok' hsol' htot' ha hN hQ2] at h2
  rw [← h1, ← h2]
  exact ⟨hQ2.cols_mono hQ1 fun v hv => ⟨hv.1, fun h hh => hv.2 h (hsub h hh)⟩, hQ1.cols_le⟩

end

/-! ## Several groups -/
section
variable {ι : Type} {G : ι → Prop} {m n : ℕ} {Q Q1 Q2 : DMat ℝ} {A B : ι → DMat ℝ}

theorem fix_entries {n : ℕ} {B : DMat ℝ} (hB : B.IsSq n) (r : Fin n → ℝ) :
    B.mulVec (List.ofFn r) = List.ofFn r ↔ ∀ j : Fin n, ∑ k : Fin n, B.e j k * r k = r j := by
  obtain ⟨h1, h2⟩ := hB
  subst h1
  have key : ∀ j : Fin B.rows, (B.mulVec (List.ofFn r)).getD j 0 = ∑ k : Fin B.rows, B.e j k * r k := fun j => by
    rw [DMat.getD_mulVec j.2, h2, Finset.sum_range]
    exact Finset.sum_congr rfl fun k _ => by rw [getD_eq_getElem _ _ (by simp), List.getElem_ofFn]
  have er : ∀ j : Fin B.rows, (List.ofFn r).getD j 0 = r j := fun j => by rw [getD_eq_getElem _ _ (by simp), List.getElem_ofFn]
  constructor
  · intro h j
    rw [← key, h, er]
  · intro h
    refine DMat.vec_ext (by simp) fun i hi => ?_
    have hi : i < B.rows := by simpa using hi
    rw [key ⟨i, hi⟩, er ⟨i, hi⟩]
    exact h _

theorem matFin_e {m n : ℕ} (v : Fin (m * n) → ℝ) (i : Fin m) (j : Fin n) : (matFin m n v).e i j = v (finProdFinEquiv (i, j)) := by
  rw [matFin, DMat.of_e i.2 j.2, getD_eq_getElem _ _ (by simpa using mul_add_lt i.2 j.2), List.getElem_ofFn]
  congr 1
  ext
  simp [finProdFinEquiv]
  ring

/-- Fixed by a product in which one factor is the identity: the columns are fixed by one factor, the rows by the other. -/
theorem kron_fixed {m n : ℕ} {A B : DMat ℝ} (hA : A.IsSq m) (hB : B.IsSq n) (h : A = DMat.one m ∨ B = DMat.one n) (v : Fin (m * n) → ℝ) :
    (DMat.kron A B).mulVec (List.ofFn v) = List.ofFn v ↔
      (∀ j : Fin n, A.mulVec (List.ofFn fun i => v (finProdFinEquiv (i, j))) = List.ofFn fun i => v (finProdFinEquiv (i, j))) ∧
      ∀ i : Fin m, B.mulVec (List.ofFn fun j => v (finProdFinEquiv (i, j))) = List.ofFn fun j => v (finProdFinEquiv (i, j)) := by
  have M1 : (matFin m n v).rows = m := rfl
  have M2 : (matFin m n v).cols = n := rfl
  rw [← matFin_flat v, DMat.kron_mulVec_flat _ _ _ hA.2 hB.2]
  have fl : ∀ X : DMat ℝ, X.rows = m → X.cols = n → (X.flat = (matFin m n v).flat ↔ ∀ (i : Fin m) (j : Fin n), X.e i j = v (finProdFinEquiv (i, j))) := fun X h1 h2 => by
    constructor
    · intro h i j
      rw [DMat.flat_inj (h1.trans M1.symm) (h2.trans M2.symm) h, matFin_e]
    · intro h
      congr 1
      refine DMat.ext h1 h2 fun i j hi hj => ?_
      rw [h1] at hi
      rw [h2] at hj
      rw [matFin_e v ⟨i, hi⟩ ⟨j, hj⟩]
      exact h ⟨i, hi⟩ ⟨j, hj⟩
  have cols : (∀ j : Fin n, A.mulVec (List.ofFn fun i => v (finProdFinEquiv (i, j))) = List.ofFn fun i => v (finProdFinEquiv (i, j))) ↔
      (A.mul (matFin m n v)).flat = (matFin m n v).flat := by
    rw [fl _ (by rw [DMat.mul_rows, hA.1]) rfl, forall_comm]
    refine forall_congr' fun j => ?_
    rw [fix_entries hA]
    refine forall_congr' fun i => ?_
    rw [DMat.mul_e (by rw [hA.1]; exact i.2) j.2, hA.2, Finset.sum_range]
    simp only [matFin_e]
  have rows : (∀ i : Fin m, B.mulVec (List.ofFn fun j => v (finProdFinEquiv (i, j))) = List.ofFn fun j => v (finProdFinEquiv (i, j))) ↔
      ((matFin m n v).mul B.transpose).flat = (matFin m n v).flat := by
    rw [fl _ rfl (by rw [DMat.mul_cols, DMat.transpose_cols, hB.1])]
    refine forall_congr' fun i => ?_
    rw [fix_entries hB]
    refine forall_congr' fun j => ?_
    rw [DMat.mul_e i.2 (by rw [DMat.transpose_cols, hB.1]; exact j.2), M2, Finset.sum_range]
    simp only [matFin_e, DMat.transpose_e, mul_comm]
  rw [cols, rows]
  rcases h with rfl | rfl
  · rw [DMat.one_mul' (n := m) _ M1]
    simp
  · rw [DMat.transpose_one, DMat.mul_one' (n := n) _ M2, DMat.mul_one' (n := n) _ (by rw [DMat.mul_cols, M2])]
    simp

theorem cols_kron (h : OrthoBasis (m * n) Q (FixedUnder G (m * n) fun x => DMat.kron (A x) (B x))) (h1 : OrthoBasis m Q1 (FixedUnder G m A))
    (h2 : OrthoBasis n Q2 (FixedUnder G n B)) (hA : ∀ h, G h → (A h).IsSq m) (hB : ∀ h, G h → (B h).IsSq n)
    (hAB : ∀ h, G h → A h = DMat.one m ∨ B h = DMat.one n) : Q.cols = Q1.cols * Q2.cols := by
  obtain ⟨L1, i1, e1⟩ := h1.exists_map
  obtain ⟨L2, i2, e2⟩ := h2.exists_map
  have fx : ∀ v : Fin (m * n) → ℝ, FixedUnder G (m * n) (fun x => DMat.kron (A x) (B x)) (List.ofFn v) ↔
      (∀ j : Fin n, ∃ b, L1 b = fun i => v (finProdFinEquiv (i, j))) ∧ ∀ i : Fin m, ∃ b, L2 b = fun j => v (finProdFinEquiv (i, j)) := fun v => by
    simp only [← e1, ← e2]
    constructor
    · rintro ⟨-, hf⟩
      have := fun x hx => (kron_fixed (hA x hx) (hB x hx) (hAB x hx) v).1 (hf x hx)
      exact ⟨fun j => ⟨by simp, fun x hx => (this x hx).1 j⟩, fun i => ⟨by simp, fun x hx => (this x hx).2 i⟩⟩
    · rintro ⟨h1, h2⟩
      exact ⟨by simp, fun x hx => (kron_fixed (hA x hx) (hB x hx) (hAB x hx) v).2 ⟨fun j => (h1 j).2 x hx, fun i => (h2 i).2 x hx⟩⟩
  let L : (Fin Q1.cols → Fin Q2.cols → ℝ) →ₗ[ℝ] (Fin (m * n) → ℝ) :=
    { toFun := fun C p => L1 (fun a => L2 (C a) (finProdFinEquiv.symm p).2) (finProdFinEquiv.symm p).1
      map_add' := fun C D => by
        funext p
        have : (fun a => L2 ((C + D) a) (finProdFinEquiv.symm p).2) = (fun a => L2 (C a) (finProdFinEquiv.symm p).2) + fun a => L2 (D a) (finProdFinEquiv.symm p).2 := by
          funext a; simp
        show L1 _ _ = L1 _ _ + L1 _ _
        rw [this, map_add]
        rfl
      map_smul' := fun c C => by
        funext p
        have : (fun a => L2 ((c • C) a) (finProdFinEquiv.symm p).2) = c • fun a => L2 (C a) (finProdFinEquiv.symm p).2 := by
          funext a; simp
        show L1 _ _ = c * L1 _ _
        rw [this, map_smul]
        rfl }
  have hLe : ∀ C i j, L C (finProdFinEquiv (i, j)) = L1 (fun a => L2 (C a) j) i := fun C i j => by
    show L1 _ _ = _
    rw [Equiv.symm_apply_apply]
  have := h.cols_finrank L ?_ ?_
  · rw [this, Module.finrank_pi_fintype]
    simp [Module.finrank_fin_fun]
  · intro C D hCD
    have s1 : ∀ j, (fun a => L2 (C a) j) = fun a => L2 (D a) j := fun j => i1 (by
      funext i
      rw [← hLe, ← hLe, hCD])
    funext a
    exact i2 (by funext j; exact congrFun (s1 j) a)
  · intro v
    rw [fx]
    constructor
    · rintro ⟨hc, hr⟩
      choose X hX using hc
      obtain ⟨Λ, hΛ⟩ := L1.exists_leftInverse_of_injective (LinearMap.ker_eq_bot.2 i1)
      have hx : ∀ j, X j = Λ fun i => v (finProdFinEquiv (i, j)) := fun j => by
        rw [← hX j]
        exact (congrFun (congrArg DFunLike.coe hΛ) (X j)).symm
      choose R hR using hr
      have : ∀ a, ∃ C, L2 C = fun j => X j a := fun a => by
        refine ⟨∑ i, Λ (fun k => if i = k then 1 else 0) a • R i, ?_⟩
        rw [map_sum]
        funext j
        rw [hx j, Finset.sum_apply, LinearMap.pi_apply_eq_sum_univ Λ, Finset.sum_apply]
        exact Finset.sum_congr rfl fun i _ => by
          rw [map_smul, hR]
          simp only [Pi.smul_apply, smul_eq_mul]
          rw [mul_comm]
      choose C hC using this
      refine ⟨C, ?_⟩
      funext p
      obtain ⟨⟨i, j⟩, rfl⟩ := finProdFinEquiv.surjective p
      rw [hLe]
      have : (fun a => L2 (C a) j) = X j := by funext a; rw [hC]
      rw [this, hX]
    · rintro ⟨C, rfl⟩
      refine ⟨fun j => ⟨fun a => L2 (C a) j, by funext i; rw [hLe]⟩, fun i => ?_⟩
      refine ⟨∑ a, L1 (fun k => if a = k then 1 else 0) i • C a, ?_⟩
      rw [map_sum]
      funext j
      rw [hLe, Finset.sum_apply, LinearMap.pi_apply_eq_sum_univ L1, Finset.sum_apply]
      exact Finset.sum_congr rfl fun a _ => by
        rw [map_smul]
        simp only [Pi.smul_apply, smul_eq_mul]
        rw [mul_comm]

end

section
variable {W : World} {Γ : Gid → Prop} {κ : Gid → ℕ} {custom : ∀ k g, AtomRep ℝ (W.d g) (W.usize k g)} {lie disc : ∀ g, List (Matrix (Fin (W.d g)) (Fin (W.d g)) ℝ)}
  {solve : ℕ → LinOp ℝ → Py (DMat ℝ)}

theorem Mono.den_sq {I : Interp ℝ} (hI : I.Sized W) : ∀ m : Mono, (m.den κ I).1.IsSq (m.dim W κ)
  | .scalar => ⟨rfl, rfl⟩
  | .rep g => hI.vec (κ g) g
  | .mul a b => by
    have h1 := a.den_sq hI
    have h2 := b.den_sq hI
    exact ⟨by show (DMat.kron _ _).rows = _; rw [DMat.kron_rows, h1.1, h2.1]; rfl, by show (DMat.kron _ _).cols = _; rw [DMat.kron_cols, h1.2, h2.2]; rfl⟩

/-- A group that does not occur acts trivially. -/
theorem Mono.den_other (ok : GroupsOK W custom lie disc) {g : Gid} {h : Matrix (Fin (W.d g)) (Fin (W.d g)) ℝ} :
    ∀ m : Mono, g ∉ m.groups → (m.den κ (Interp.elem W custom g h)).1 = DMat.one (m.dim W κ)
  | .scalar, _ => rfl
  | .rep g', hg => by
    have hne : g' ≠ g := fun e => hg (by simp [Mono.groups, e])
    show DMat.ofMatrix ((stdAtoms W custom (κ g') g').rho (oneAt W g h g')) = _
    rw [oneAt_ne hne, (stdAtoms W custom (κ g') g').one, DMat.ofMatrix_one]
    rfl
  | .mul a b, hg => by
    simp only [Mono.groups, mem_append, not_or] at hg
    show DMat.kron _ _ = _
    rw [a.den_other ok hg.1, b.den_other ok hg.2, DMat.kron_one_one]
    rfl

theorem World.Multi.onePerGroup {k : Key} (h : W.Multi Γ (letter κ) (k.base W)) : k.OnePerGroup := by
  match k, h with
  | .scalar, _ => trivial
  | .fac f, _ => trivial
  | .dprod d, ⟨l, l1, l2, l3, l4, l5⟩ =>
    show (d.c.keys.map Fac.G).Nodup
    have l4 : d.c = l.map (fun x => (Fac.power W (letter κ x.1) x.2, 1)) := l4
    have : d.c.keys.map Fac.G = l.map fun x => some x.1 := by
      rw [l4, Counter.keys, map_map, map_map]
      refine map_congr_left fun x hx => ?_
      simp only [Function.comp]
      rw [power_G _ _ (l2 x hx).2]
      rfl
    rw [this, List.Nodup, List.pairwise_map]
    exact l3.imp fun {a b} hab e => by
      rw [Option.some.inj e] at hab
      exact absurd hab (lt_irrefl _)

/-- The basis of a product of representations of several groups. -/
theorem mono_basis (hΓ : W.GroupsOK Γ κ) (ok : GroupsOK W custom lie disc)
    (hsol : SolverOK W (gensOf W (stdAtoms W custom) lie disc) solve) (htot : SolverRuns W (gensOf W (stdAtoms W custom) lie disc) solve)
    (m : Mono) (hm : ∀ g ∈ m.groups, Γ g) (calls : List SolveCall) :
    ∃ r L, m.eval W κ = .ok r ∧
      (r.equivariantBasis W (gensOf W (stdAtoms W custom) lie disc) solve (session W (gensOf W (stdAtoms W custom) lie disc) solve calls freshSt)).1 = .ok L ∧
      OrthoBasis (m.dim W κ) L.sem (FixedUnder (ι := (g : Gid) × Matrix (Fin (W.d g)) (Fin (W.d g)) ℝ) (fun x => Generated (lie x.1) (disc x.1) x.2) (m.dim W κ)
        fun x => (m.den κ (Interp.elem W custom x.1 x.2)).1) := by
  obtain ⟨k, k1, k2, k3, k4, k5, k6, -⟩ := Mono.eval_good hΓ m hm
  have hwf : (Rep.key k).WF W := k2
  obtain ⟨h1, h2⟩ := C21_equivariant_basis (r := .key k) gensOf_sized hsol hwf (World.Multi.onePerGroup k3) calls
  obtain ⟨L, hL⟩ := h2 htot
  have ho := h1 L hL
  have hsz : (Rep.key k).size W = m.dim W κ := k4
  rw [hsz] at ho
  refine ⟨_, L, k1, hL, ho.rows, ho.orth, fun v hv => ?_⟩
  rw [← ho.span v hv]
  have hden : ∀ g h, (Rep.key k).mat (Interp.elem W custom g h) = (m.den κ (Interp.elem W custom g h)).1 := fun g h => k6 ℝ _ (at_sized _)
  constructor
  · rintro ⟨-, hf⟩ g
    exact fixed_gens_of_group (stdAtoms_hom ok.hom) hwf (hv.trans hsz.symm) g fun h hh => (congrArg (fun M => M.mulVec v) (hden g h)).trans (hf ⟨g, h⟩ hh)
  · intro hf
    refine ⟨hv, fun x hx => ?_⟩
    show ((m.den κ (Interp.elem W custom x.1 x.2)).1).mulVec v = v
    rw [← hden]
    exact fixed_one_group (stdAtoms_hom ok.hom) ok.unit hwf (hv.trans hsz.symm) hf x.1 hx

/-- **C132.** For products of representations of different groups the numbers multiply. -/
theorem C132_groups (hΓ : W.GroupsOK Γ κ) (ok : GroupsOK W custom lie disc)
    (hsol : SolverOK W (gensOf W (stdAtoms W custom) lie disc) solve) (htot : SolverRuns W (gensOf W (stdAtoms W custom) lie disc) solve)
    {a b : Mono} (ha : ∀ g ∈ a.groups, Γ g) (hb : ∀ g ∈ b.groups, Γ g) (hab : ∀ g ∈ a.groups, g ∉ b.groups) {m n : ℕ}
    (h1 : MColumns W κ (gensOf W (stdAtoms W custom) lie disc) solve a m) (h2 : MColumns W κ (gensOf W (stdAtoms W custom) lie disc) solve b n) :
    MColumns W κ (gensOf W (stdAtoms W custom) lie disc) solve (.mul a b) (m * n) := by
  intro calls
  have hm : ∀ g ∈ (Mono.mul a b).groups, Γ g := fun g hg => (mem_append.1 hg).elim (ha g) (hb g)
  obtain ⟨r, L, hr, hL, hQ⟩ := mono_basis hΓ ok hsol htot (.mul a b) hm calls
  obtain ⟨r1, L1, hr1, hL1, rfl⟩ := h1 []
  obtain ⟨r2, L2, hr2, hL2, rfl⟩ := h2 []
  obtain ⟨r1', L1', hr1', hL1', hQ1⟩ := mono_basis hΓ ok hsol htot a ha []
  obtain ⟨r2', L2', hr2', hL2', hQ2⟩ := mono_basis hΓ ok hsol htot b hb []
  rw [hr1] at hr1'
  rw [hr2] at hr2'
  cases hr1'
  cases hr2'
  rw [hL1] at hL1'
  rw [hL2] at hL2'
  cases hL1'
  cases hL2'
  refine ⟨r, L, hr, hL, cols_kron hQ hQ1 hQ2 (fun x _ => a.den_sq (at_sized _)) (fun x _ => b.den_sq (at_sized _)) fun x _ => ?_⟩
  by_cases hx : x.1 ∈ a.groups
  · exact .inr (b.den_other ok (hab _ hx))
  · exact .inl (a.den_other ok hx)

end

/-! ## The hypotheses are met -/

/-- rotations of space about an axis: the counts of vectors and scalars, and a sum, a multiple, maps, and a larger group -/
example : ∃ (solve : ℕ → LinOp ℝ → Py (DMat ℝ)) (m : ℕ),
    exW.SingleOK 0 81 ∧ GroupsOK exW (fun k g => trivialAtom _ _) rotLies (fun _ => []) ∧
    SolverOK exW (gensOf exW (stdAtoms exW fun k g => trivialAtom _ _) rotLies fun _ => []) solve ∧
    SolverRuns exW (gensOf exW (stdAtoms exW fun k g => trivialAtom _ _) rotLies fun _ => []) solve ∧
    (Expr.rep 0).OK exW 0 ∧ Expr.scalar.OK exW 0 ∧ (Expr.rshift (.add (.rep 0) .scalar) (.rep 0)).bound exW 0 ≤ 81 ∧
    Columns exW 0 (gensOf exW (stdAtoms exW fun k g => trivialAtom _ _) rotLies fun _ => []) solve (.rep 0) m ∧
    Columns exW 0 (gensOf exW (stdAtoms exW fun k g => trivialAtom _ _) rotLies fun _ => []) solve (.add (.rep 0) (.rep 0)) (m + m) := by
  obtain ⟨s, h1, h2⟩ := exists_solver ℝ
  have hW := exW_single 0 81 (by decide)
  have hv : (Expr.rep 0).OK exW 0 := ⟨by decide, .inl rfl⟩
  obtain ⟨S, -, hS⟩ := C132_dimension hW rot_groups (h1 _ _) (fun _ _ C _ => h2 C) hv (by decide)
  exact ⟨_, _, hW, rot_groups, h1 _ _, fun _ _ C _ => h2 C, hv, trivial, by decide, hS, C132_sum hW rot_groups (h1 _ _) (fun _ _ C _ => h2 C) hv hv (by decide) hS hS⟩

/-- `V(G0)` and `V(G3)` -/
example : ∃ (solve : ℕ → LinOp ℝ → Py (DMat ℝ)) (m n : ℕ),
    exW.GroupsOK (fun g => g = 0 ∨ g = 3) (fun _ => 0) ∧ (∀ g ∈ (Mono.rep 0).groups, g ∉ (Mono.rep 3).groups) ∧
    MColumns exW (fun _ => 0) (gensOf exW (stdAtoms exW fun k g => trivialAtom _ _) rotLies fun _ => []) solve (.rep 0) m ∧
    MColumns exW (fun _ => 0) (gensOf exW (stdAtoms exW fun k g => trivialAtom _ _) rotLies fun _ => []) solve (.rep 3) n ∧
    MColumns exW (fun _ => 0) (gensOf exW (stdAtoms exW fun k g => trivialAtom _ _) rotLies fun _ => []) solve (.mul (.rep 0) (.rep 3)) (m * n) := by
  obtain ⟨s, h1, h2⟩ := exists_solver ℝ
  have hΓ := (exW_multi 1000 (by omega)).toGroupsOK
  have key : ∀ m : Mono, (∀ g ∈ m.groups, g = 0 ∨ g = 3) →
      ∃ c, MColumns exW (fun _ => 0) (gensOf exW (stdAtoms exW fun k g => trivialAtom _ _) rotLies fun _ => []) (fun _ => s) m c := fun m hm => by
    obtain ⟨r, L, hr, hL, hQ⟩ := mono_basis hΓ rot_groups (h1 _ _) (fun _ _ C _ => h2 C) m hm []
    refine ⟨L.sem.cols, fun calls => ?_⟩
    obtain ⟨r', L', hr', hL', hQ'⟩ := mono_basis hΓ rot_groups (h1 _ _) (fun _ _ C _ => h2 C) m hm calls
    exact ⟨r', L', hr', hL', hQ'.cols_equiv hQ (LinearEquiv.refl ℝ _) fun v => Iff.rfl⟩
  have g0 : ∀ g ∈ (Mono.rep 0).groups, g = 0 ∨ g = 3 := by simp [Mono.groups]
  have g3 : ∀ g ∈ (Mono.rep 3).groups, g = 0 ∨ g = 3 := by simp [Mono.groups]
  have gd : ∀ g ∈ (Mono.rep 0).groups, g ∉ (Mono.rep 3).groups := by simp [Mono.groups]
  obtain ⟨m, hm⟩ := key (.rep 0) g0
  obtain ⟨n, hn⟩ := key (.rep 3) g3
  exact ⟨_, m, n, hΓ, gd, hm, hn, C132_groups hΓ rot_groups (h1 _ _) (fun _ _ C _ => h2 C) g0 g3 gd hm hn⟩

end Verif
