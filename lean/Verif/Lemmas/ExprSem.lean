import Verif.Spec.Expr
import Verif.Lemmas.RepOps
import Verif.Lemmas.DenseInv

/-! Evaluation of representation expressions. -/
namespace Verif
open List

variable {W : World} {g : Gid} {N : ℕ}

/-- Two square matrices, the second the transposed inverse of the first. -/
structure InvPair {R : Type} [CommRing R] (n : ℕ) (P : DMat R × DMat R) : Prop where
  sq1 : P.1.IsSq n
  sq2 : P.2.IsSq n
  inv : P.2.transpose.mul P.1 = DMat.one n

section
variable {R : Type} [CommRing R]

theorem InvPair.symm {n : ℕ} {P : DMat R × DMat R} (h : InvPair n P) : InvPair n (P.2, P.1) := by
  refine ⟨h.sq2, h.sq1, ?_⟩
  have := congrArg DMat.transpose h.inv
  rwa [DMat.transpose_mul _ _ (by simp [h.sq1.1, h.sq2.1]), DMat.transpose_transpose, DMat.transpose_one] at this

theorem InvPair.one (n : ℕ) : InvPair n ((DMat.one n, DMat.one n) : DMat R × DMat R) := by
  refine ⟨⟨rfl, rfl⟩, ⟨rfl, rfl⟩, ?_⟩
  simp only
  rw [DMat.transpose_one]
  exact DMat.one_mul' (R := R) (DMat.one n) rfl

theorem InvPair.bdiag {ι : Type} (l : List ι) (f : ι → DMat R × DMat R) (s : ι → ℕ) (h : ∀ x ∈ l, InvPair (s x) (f x)) :
    InvPair (l.map s).sum (DMat.bdiag (l.map fun x => (f x).1), DMat.bdiag (l.map fun x => (f x).2)) := by
  refine ⟨bdiag_isSq _ _ _ fun x hx => (h x hx).sq1, bdiag_isSq _ _ _ fun x hx => (h x hx).sq2, ?_⟩
  simp only
  rw [DMat.transpose_bdiag, map_map, DMat.bdiag_mul l (DMat.transpose ∘ fun x => (f x).2)]
  · rw [← DMat.bdiag_one]
    congr 1
    exact map_congr_left fun x hx => (h x hx).inv
  · intro x hx; simp [(h x hx).sq1.1, (h x hx).sq2.1]

theorem InvPair.kronL {ι : Type} (l : List ι) (f : ι → DMat R × DMat R) (s : ι → ℕ) (h : ∀ x ∈ l, InvPair (s x) (f x)) :
    InvPair (l.map s).prod (DMat.kronL (l.map fun x => (f x).1), DMat.kronL (l.map fun x => (f x).2)) := by
  refine ⟨kronL_isSq _ _ _ fun x hx => (h x hx).sq1, kronL_isSq _ _ _ fun x hx => (h x hx).sq2, ?_⟩
  simp only
  rw [DMat.transpose_kronL, map_map, DMat.kronL_mul l (DMat.transpose ∘ fun x => (f x).2)]
  · rw [← DMat.kronL_one]
    congr 1
    exact map_congr_left fun x hx => (h x hx).inv
  · intro x hx; simp [(h x hx).sq1.1, (h x hx).sq2.1]

theorem InvPair.bdiag2 {m n : ℕ} {P Q : DMat R × DMat R} (hP : InvPair m P) (hQ : InvPair n Q) :
    InvPair (m + n) (DMat.bdiag [P.1, Q.1], DMat.bdiag [P.2, Q.2]) := by
  have := InvPair.bdiag [(m, P), (n, Q)] (fun x => x.2) (fun x => x.1) (by
    intro x hx; simp at hx; rcases hx with rfl | rfl <;> assumption)
  simpa using this

theorem InvPair.kron2 {m n : ℕ} {P Q : DMat R × DMat R} (hP : InvPair m P) (hQ : InvPair n Q) :
    InvPair (m * n) (DMat.kron P.1 Q.1, DMat.kron P.2 Q.2) := by
  have := InvPair.kronL [(m, P), (n, Q)] (fun x => x.2) (fun x => x.1) (by
    intro x hx; simp at hx; rcases hx with rfl | rfl <;> assumption)
  simpa [DMat.kronL, DMat.kron_one] using this

/-- The meaning of an expression is a pair of mutually inverse-transposed square matrices. -/
theorem Expr.den_pair {I : Interp R} (hI : I.Dual W) : ∀ e : Expr, InvPair (e.dim W g) (e.den g I)
  | .scalar => InvPair.one 1
  | .rep k => ⟨hI.vec k g, hI.dual k g, hI.inv k g⟩
  | .add a b => (a.den_pair hI).bdiag2 (b.den_pair hI)
  | .mul a b => (a.den_pair hI).kron2 (b.den_pair hI)
  | .dual a => (a.den_pair hI).symm
  | .nsmul n a => by
    have := InvPair.bdiag (replicate n ()) (fun _ => a.den g I) (fun _ => a.dim W g) fun _ _ => a.den_pair hI
    simpa [Expr.dim, Expr.den] using this
  | .addNat a n => (a.den_pair hI).bdiag2 (InvPair.one n)
  | .natAdd n a => by
    have := (InvPair.one n).bdiag2 (a.den_pair hI)
    rw [Nat.add_comm] at this
    exact this
  | .pow a n => by
    have := InvPair.kronL (replicate n ()) (fun _ => a.den g I) (fun _ => a.dim W g) fun _ _ => a.den_pair hI
    simpa [Expr.dim, Expr.den] using this
  | .rshift a b => (b.den_pair hI).kron2 (a.den_pair hI).symm
  | .lshift a b => (a.den_pair hI).kron2 (b.den_pair hI).symm

end

/-- What is proved of each subexpression. -/
def Expr.Good (W : World) (g : Gid) (S : Key → Prop) (e : Expr) (r : Rep) : Prop :=
  r.WF W ∧ (∀ k ∈ r.keys W, S k) ∧ r.size W = e.dim W g ∧
    ∀ (R : Type) [CommRing R] (I : Interp R), I.Dual W → r.mat I = (e.den g I).1

theorem Expr.good_T {S : Key → Prop} (hS : KeyClass W S N) (hT : DualClass W S) {e : Expr} {r : Rep} (h : e.Good W g S r) :
    ∃ t, Rep.T W r = .ok t ∧ t.WF W ∧ (∀ k ∈ t.keys W, S k) ∧ t.size W = e.dim W g ∧
      ∀ (R : Type) [CommRing R] (I : Interp R), I.Dual W → t.mat I = (e.den g I).2 := by
  obtain ⟨h1, h2, h3, h4⟩ := h
  obtain ⟨t, t1, t2, t3, t4, t5⟩ := Rep.T_spec hS hT h1 h2
  refine ⟨t, t1, t2, t3, t4.trans h3, ?_⟩
  intro R _ I hI
  have hp := e.den_pair (W := W) (g := g) hI
  have hsq := Rep.mat_sq hI.toSized t2
  have h5 := t5 R I hI
  rw [h4 R I hI, h3] at h5
  rw [t4, h3] at hsq
  exact DMat.invT_unique hsq hp.sq2 hp.sq1 h5 hp.inv

theorem Expr.eval_good (hW : W.SingleOK g N) : ∀ e : Expr, e.OK W g → e.bound W g ≤ N →
    ∃ r, e.eval W g = .ok r ∧ e.Good W g (W.Single g N) r := by
  have hS := hW.keyClass
  have hT := World.Single.dual hW
  have hsc : W.Single g N .scalar := ⟨hW.pos, trivial⟩
  intro e
  induction e with
  | scalar =>
    intro _ _
    refine ⟨_, rfl, trivial, ?_, rfl, ?_⟩
    · intro k hk; simp only [Rep.keys, mem_singleton] at hk; rw [hk]; exact hsc
    · intro R _ I _; rfl
  | rep k =>
    intro hok hb
    have hl : W.Letter g (.vec k (some g)) := by
      refine ⟨?_, hok.1⟩
      rcases ho : W.orth g with _ | _
      · rcases hok.2 with h | h
        · subst h; exact Or.inr ⟨rfl, Or.inl rfl⟩
        · rw [ho] at h; simp at h
      · exact Or.inl ⟨rfl, k, rfl⟩
    refine ⟨_, rfl, rfl, ?_, rfl, ?_⟩
    · intro x hx; simp only [Rep.keys, mem_singleton] at hx; rw [hx]
      exact ⟨hb, hl⟩
    · intro R _ I _; rfl
  | add a b iha ihb =>
    intro hok hb
    simp only [bound, max_le_iff] at hb
    obtain ⟨x, x1, x2, x3, x4, x5⟩ := iha hok.1 hb.1
    obtain ⟨y, y1, y2, y3, y4, y5⟩ := ihb hok.2 hb.2
    obtain ⟨r, r1, r2, r3, r4, r5⟩ := Rep.add_spec x2 y2 (hS.st _ (by
        intro k hk; rcases mem_append.1 hk with hk | hk; exacts [x3 k hk, y3 k hk]))
    refine ⟨r, ?_, r2, ?_, ?_, ?_⟩
    · simp only [eval]; rw [x1, y1]; exact r1
    · intro k hk; rcases (r3 k).1 hk with hk | hk; exacts [x3 k hk, y3 k hk]
    · rw [r4, x4, y4]; rfl
    · intro R _ I hI; rw [r5 R I hI.toSized, x5 R I hI, y5 R I hI]; rfl
  | mul a b iha ihb =>
    intro hok hb
    simp only [bound, max_le_iff] at hb
    obtain ⟨x, x1, x2, x3, x4, x5⟩ := iha hok.1 hb.2.1
    obtain ⟨y, y1, y2, y3, y4, y5⟩ := ihb hok.2 hb.2.2
    obtain ⟨r, r1, r2, r3, r4, r5⟩ := Rep.mul_spec hS x2 y2 x3 y3 (by rw [x4, y4]; exact hb.1)
    refine ⟨r, ?_, r2, r3, ?_, ?_⟩
    · simp only [eval]; rw [x1, y1]; exact r1
    · rw [r4, x4, y4]; rfl
    · intro R _ I hI; rw [r5 R I hI.toSized, x5 R I hI, y5 R I hI]; rfl
  | dual a iha =>
    intro hok hb
    obtain ⟨x, x1, x2⟩ := iha hok hb
    obtain ⟨t, t1, t2, t3, t4, t5⟩ := Expr.good_T hS hT x2
    refine ⟨t, ?_, t2, t3, t4, t5⟩
    simp only [eval]; rw [x1]; exact t1
  | nsmul n a iha =>
    intro hok hb
    obtain ⟨x, x1, x2, x3, x4, x5⟩ := iha hok.2 hb
    obtain ⟨r, r1, r2, r3, r4, r5⟩ := Rep.mulInt_spec x2 (hS.st _ x3) hok.1
    refine ⟨r, ?_, r2, ?_, ?_, ?_⟩
    · simp only [eval]; rw [x1]; show (Rep.mulInt W x n >>= _) = _; rw [r1]; rfl
    · intro k hk; exact x3 k ((r4 k).1 hk)
    · rw [r3, x4]; rfl
    · intro R _ I hI; rw [r5 R I hI.toSized, x5 R I hI]; rfl
  | addNat a n iha =>
    intro hok hb
    obtain ⟨x, x1, x2, x3, x4, x5⟩ := iha hok hb
    obtain ⟨r, r1, r2, r3, r4, r5⟩ := Rep.addInt_spec hS hsc x2 x3 n false
    refine ⟨r, ?_, r2, r3, ?_, ?_⟩
    · simp only [eval]; rw [x1]; exact r1
    · rw [r4, x4]; rfl
    · intro R _ I hI; rw [r5 R I hI.toSized, x5 R I hI]; rfl
  | natAdd n a iha =>
    intro hok hb
    obtain ⟨x, x1, x2, x3, x4, x5⟩ := iha hok hb
    obtain ⟨r, r1, r2, r3, r4, r5⟩ := Rep.addInt_spec hS hsc x2 x3 n true
    refine ⟨r, ?_, r2, r3, ?_, ?_⟩
    · simp only [eval]; rw [x1]; exact r1
    · rw [r4, x4]; rfl
    · intro R _ I hI; rw [r5 R I hI.toSized, x5 R I hI]; rfl
  | pow a n iha =>
    intro hok hb
    simp only [bound, max_le_iff] at hb
    obtain ⟨x, x1, x2, x3, x4, x5⟩ := iha hok hb.2
    obtain ⟨r, r1, r2, r3, r4, r5⟩ := Rep.pow_spec hS hsc x2 x3 n (by rw [x4]; exact hb.1)
    refine ⟨r, ?_, r2, r3, ?_, ?_⟩
    · simp only [eval]; rw [x1]; exact r1
    · rw [r4, x4]; rfl
    · intro R _ I hI; rw [r5 R I hI.toSized, x5 R I hI]; rfl
  | rshift a b iha ihb =>
    intro hok hb
    simp only [bound, max_le_iff] at hb
    obtain ⟨x, x1, x2⟩ := iha hok.1 hb.2.1
    obtain ⟨y, y1, y2, y3, y4, y5⟩ := ihb hok.2 hb.2.2
    obtain ⟨t, t1, t2, t3, t4, t5⟩ := Expr.good_T hS hT x2
    obtain ⟨r, r1, r2, r3, r4, r5⟩ := Rep.mul_spec hS y2 t2 y3 t3 (by rw [t4, y4]; exact hb.1)
    refine ⟨r, ?_, r2, r3, ?_, ?_⟩
    · simp only [eval, Rep.rshift]; rw [x1, y1]; show (Rep.T W x >>= _) = _; rw [t1]; exact r1
    · rw [r4, y4, t4]; rfl
    · intro R _ I hI; rw [r5 R I hI.toSized, t5 R I hI, y5 R I hI]; rfl
  | lshift a b iha ihb =>
    intro hok hb
    simp only [bound, max_le_iff] at hb
    obtain ⟨x, x1, x2, x3, x4, x5⟩ := iha hok.1 hb.2.1
    obtain ⟨y, y1, y2⟩ := ihb hok.2 hb.2.2
    obtain ⟨t, t1, t2, t3, t4, t5⟩ := Expr.good_T hS hT y2
    obtain ⟨r, r1, r2, r3, r4, r5⟩ := Rep.mul_spec hS x2 t2 x3 t3 (by rw [t4, x4]; exact hb.1)
    refine ⟨r, ?_, r2, r3, ?_, ?_⟩
    · simp only [eval, Rep.lshift]; rw [x1, y1]; show (Rep.T W y >>= _) = _; rw [t1]; exact r1
    · rw [r4, x4, t4]; rfl
    · intro R _ I hI; rw [r5 R I hI.toSized, t5 R I hI, x5 R I hI]; rfl

end Verif
