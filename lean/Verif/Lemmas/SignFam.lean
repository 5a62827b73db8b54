import Verif.Spec.Rank
import Verif.Lemmas.Laurent

/-!
# How diagonal matrices of signs act on tensors of bounded rank
-/
namespace Verif
open List

/-- The product of the signs with these exponents. -/
def signMon {n : ℕ} (c : Fin n → ℕ) (ε : Fin n → ℤˣ) : ℝ := ∏ j, ((ε j : ℤ) : ℝ) ^ c j

theorem signMon_zero {n : ℕ} (ε : Fin n → ℤˣ) : signMon (fun _ => 0) ε = 1 := by simp [signMon]

theorem signMon_add {n : ℕ} (c d : Fin n → ℕ) (ε : Fin n → ℤˣ) : signMon (fun j => c j + d j) ε = signMon c ε * signMon d ε := by
  simp [signMon, pow_add, Finset.prod_mul_distrib]

theorem sign_sq (u : ℤˣ) : ((u : ℤ) : ℝ) * ((u : ℤ) : ℝ) = 1 := by
  rcases Int.units_eq_one_or u with h | h <;> simp [h]

theorem signMon_sq {n : ℕ} (c : Fin n → ℕ) (ε : Fin n → ℤˣ) : signMon c ε * signMon c ε = 1 := by
  rw [signMon, ← Finset.prod_mul_distrib]
  exact Finset.prod_eq_one fun j _ => by rw [← mul_pow, sign_sq, one_pow]

/-- With exponent zero somewhere the total sign can be corrected there. -/
theorem signMon_correct {n : ℕ} {b : Fin n} {c : Fin n → ℕ} (hc : c b = 0) (ε : Fin n → ℤˣ) (u : ℤˣ) :
    signMon c (Function.update ε b u) = signMon c ε := by
  unfold signMon
  refine Finset.prod_congr rfl fun j _ => ?_
  by_cases e : j = b
  · rw [e, hc, pow_zero, pow_zero]
  · rw [Function.update_of_ne e]

theorem prod_correct {n : ℕ} (b : Fin n) (ε : Fin n → ℤˣ) : ∏ j, Function.update ε b (ε b * ∏ j, ε j) j = 1 := by
  rw [Finset.prod_update_of_mem (Finset.mem_univ b), mul_right_comm]
  rw [show ε b * ∏ x ∈ Finset.univ \ {b}, ε x = ∏ j, ε j by
    rw [← Finset.mul_prod_erase Finset.univ ε (Finset.mem_univ b), Finset.sdiff_singleton_eq_erase]]
  exact Int.units_mul_self _

/-- A family of diagonal matrices, indexed by signs, whose entries are products of at most `k` signs. -/
structure DMat.SFam (n N k : ℕ) (A : (Fin n → ℤˣ) → DMat ℝ) : Prop where
  sq : ∀ ε, (A ε).IsSq N
  ent : ∃ c : ℕ → Fin n → ℕ, (∀ i, ∑ j, c i j ≤ k) ∧ ∀ i < N, ∀ j < N, ∀ ε, (A ε).e i j = if i = j then signMon (c i) ε else 0

namespace DMat.SFam
variable {n : ℕ}

theorem mono {N k k' : ℕ} {A : (Fin n → ℤˣ) → DMat ℝ} (h : SFam n N k A) (hk : k ≤ k') : SFam n N k' A := by
  obtain ⟨c, h1, h2⟩ := h.ent
  exact ⟨h.sq, c, fun i => (h1 i).trans hk, h2⟩

theorem one (N : ℕ) : SFam n N 0 fun _ => DMat.one N := by
  refine ⟨fun _ => ⟨rfl, rfl⟩, fun _ _ => 0, fun _ => by simp, fun i hi j hj ε => ?_⟩
  rw [signMon_zero]
  simp [DMat.one, DMat.of, hi, hj]

theorem pick {N k : ℕ} {A : (Fin n → ℤˣ) → DMat ℝ} (h : SFam n N k A) {p : List ℕ} (hp : p ~ range N) : SFam n N k fun ε => (A ε).pick p p := by
  obtain ⟨c, h1, h2⟩ := h.ent
  have hl := length_of_perm_range hp
  refine ⟨fun ε => ⟨hl, hl⟩, fun i => c (p.getD i 0), fun i => h1 _, fun i hi j hj ε => ?_⟩
  have m : ∀ i < N, p.getD i 0 < N := fun i hi => lt_of_perm_range hp (by
    rw [getD_eq_getElem _ _ (by rw [hl]; exact hi)]; exact getElem_mem _)
  have inj : p.getD i 0 = p.getD j 0 ↔ i = j := by
    rw [getD_eq_getElem _ _ (by rw [hl]; exact hi), getD_eq_getElem _ _ (by rw [hl]; exact hj)]
    exact (hp.nodup_iff.2 nodup_range).getElem_inj_iff
  simp only [DMat.pick, DMat.of]
  rw [if_pos ⟨by rw [hl]; exact hi, by rw [hl]; exact hj⟩, h2 _ (m i hi) _ (m j hj)]
  simp only [inj]

theorem kron {N M k l : ℕ} {A B : (Fin n → ℤˣ) → DMat ℝ} (hA : SFam n N k A) (hB : SFam n M l B) :
    SFam n (N * M) (k + l) fun ε => DMat.kron (A ε) (B ε) := by
  obtain ⟨c, c1, c2⟩ := hA.ent
  obtain ⟨d, d1, d2⟩ := hB.ent
  refine ⟨fun ε => ⟨by simp [DMat.kron, (hA.sq ε).1, (hB.sq ε).1], by simp [DMat.kron, (hA.sq ε).2, (hB.sq ε).2]⟩,
    fun i j => c (i / M) j + d (i % M) j, fun i => ?_, fun i hi j hj ε => ?_⟩
  · rw [Finset.sum_add_distrib]; exact add_le_add (c1 _) (d1 _)
  · have hM : 0 < M := Nat.pos_of_ne_zero fun e => by subst e; simp at hi
    simp only [DMat.kron, DMat.of, (hA.sq _).1, (hA.sq _).2, (hB.sq _).1, (hB.sq _).2]
    rw [if_pos ⟨hi, hj⟩, c2 _ (Nat.div_lt_of_lt_mul (by rwa [mul_comm])) _ (Nat.div_lt_of_lt_mul (by rwa [mul_comm])), d2 _ (Nat.mod_lt _ hM) _ (Nat.mod_lt _ hM), signMon_add]
    by_cases e : i = j
    · simp [e]
    · rw [if_neg e]
      by_cases e1 : i / M = j / M
      · rw [if_neg (c := i % M = j % M), mul_zero]
        intro e2
        apply e
        rw [← Nat.div_add_mod i M, ← Nat.div_add_mod j M, e1, e2]
      · rw [if_neg e1, zero_mul]

theorem bdiag2 {N M k : ℕ} {A B : (Fin n → ℤˣ) → DMat ℝ} (hA : SFam n N k A) (hB : SFam n M k B) :
    SFam n (N + M) k fun ε => DMat.bdiag2 (A ε) (B ε) := by
  obtain ⟨c, c1, c2⟩ := hA.ent
  obtain ⟨d, d1, d2⟩ := hB.ent
  refine ⟨fun ε => ⟨by simp [DMat.bdiag2, (hA.sq ε).1, (hB.sq ε).1], by simp [DMat.bdiag2, (hA.sq ε).2, (hB.sq ε).2]⟩,
    fun i => if i < N then c i else d (i - N), fun i => ?_, fun i hi j hj ε => ?_⟩
  · beta_reduce
    split_ifs
    exacts [c1 _, d1 _]
  · simp only [DMat.bdiag2, DMat.of, (hA.sq _).1, (hA.sq _).2, (hB.sq _).1, (hB.sq _).2]
    rw [if_pos ⟨hi, hj⟩]
    by_cases e1 : i < N <;> by_cases e2 : j < N <;> simp only [e1, e2, if_true, if_false]
    · exact c2 i e1 j e2 ε
    · rw [if_neg (by omega)]
    · rw [if_neg (by omega)]
    · rw [d2 _ (by omega) _ (by omega)]
      by_cases e : i = j
      · simp [e]
      · rw [if_neg (by omega), if_neg e]

theorem kronL {ι : Type} (l : List ι) (f : (Fin n → ℤˣ) → ι → DMat ℝ) (s k : ι → ℕ) (h : ∀ x ∈ l, SFam n (s x) (k x) fun t => f t x) :
    SFam n (l.map s).prod (l.map k).sum fun t => DMat.kronL (l.map (f t)) := by
  induction l with
  | nil => exact one 1
  | cons a l ih =>
    simp only [map_cons, prod_cons, sum_cons, DMat.kronL]
    exact (h a (by simp)).kron (ih fun x hx => h x (by simp [hx]))

theorem bdiag {ι : Type} (l : List ι) (f : (Fin n → ℤˣ) → ι → DMat ℝ) (s : ι → ℕ) (k : ℕ) (h : ∀ x ∈ l, SFam n (s x) k fun t => f t x) :
    SFam n (l.map s).sum k fun t => DMat.bdiag (l.map (f t)) := by
  induction l with
  | nil => exact (one 0).mono (Nat.zero_le _)
  | cons a l ih =>
    simp only [map_cons, sum_cons, DMat.bdiag]
    exact (h a (by simp)).bdiag2 (ih fun x hx => h x (by simp [hx]))

end DMat.SFam

/-- A family of interpretations of the atoms by such matrices. -/
structure Interp.SFam (W : World) (n : ℕ) (rk : ℕ → ℕ) (I : (Fin n → ℤˣ) → Interp ℝ) : Prop where
  vec : ∀ k g, DMat.SFam n (W.asize k g) (rk k) fun t => ((I t).vec k (some g)).sem
  dual : ∀ k g, DMat.SFam n (W.asize k g) (rk k) fun t => ((I t).dual k (some g)).sem

section
variable {W : World} {n : ℕ} {rk : ℕ → ℕ} {I : (Fin n → ℤˣ) → Interp ℝ}

theorem Interp.SFam.sized (h : Interp.SFam W n rk I) (t : Fin n → ℤˣ) : (I t).Sized W := ⟨fun k g => (h.vec k g).sq t, fun k g => (h.dual k g).sq t⟩

theorem Atom.rho_sfam (h : Interp.SFam W n rk I) {a : Atom} (ha : a.G.isSome) : DMat.SFam n (a.size W) (a.rank rk) fun t => (a.rho (I t)).sem := by
  match a, ha with
  | .vec k (some g), _ => exact h.vec k g
  | .dual k (some g), _ => exact h.dual k g

theorem conjPerm_sfam {N k : ℕ} {p : List ℕ} {X : (Fin n → ℤˣ) → LinOp ℝ} (hp : p ~ range N) (hX : DMat.SFam n N k fun t => (X t).sem) :
    DMat.SFam n N k fun t => (conjPerm p (X t)).sem := by
  have ha : argsort p ~ range N := length_of_perm_range hp ▸ argsort_perm p
  simp only [fun t => conjPerm_sem hp (hX.sq t)]
  exact hX.pick ha

theorem PRep.rho_sfam (h : Interp.SFam W n rk I) {p : PRep} (hp : p.WF W) : DMat.SFam n (p.size W) (p.rank rk) fun t => (p.rho (I t)).sem := by
  refine conjPerm_sfam (X := fun t => LinOp.kron (p.c.expand.map (Atom.rho (I t)))) hp.perm ?_
  simp only [LinOp.sem, semL_map]
  have := DMat.SFam.kronL p.c.expand (fun t a => (a.rho (I t)).sem) (Atom.size W) (Atom.rank rk) fun a ha => Atom.rho_sfam h (hp.some a (Counter.mem_expand ha))
  rw [prod_map_expand] at this
  exact this

theorem Fac.rho_sfam (h : Interp.SFam W n rk I) {f : Fac} (hf : f.WF W) : DMat.SFam n (f.size W) (f.rank rk) fun t => (f.rho (I t)).sem := by
  cases f with
  | atom a => exact Atom.rho_sfam h hf
  | prod p => exact PRep.rho_sfam h hf

theorem DRep.rho_sfam (h : Interp.SFam W n rk I) {d : DRep} (hd : d.WF W) : DMat.SFam n (d.size W) (d.rank rk) fun t => (d.rho (I t)).sem := by
  refine conjPerm_sfam (X := fun t => LinOp.kron (d.c.expand.map (Fac.rho (I t)))) hd.perm ?_
  simp only [LinOp.sem, semL_map]
  have := DMat.SFam.kronL d.c.expand (fun t a => (a.rho (I t)).sem) (Fac.size W) (Fac.rank rk) fun a ha => Fac.rho_sfam h (hd.key a (Counter.mem_expand ha))
  rw [prod_map_expand] at this
  exact this

theorem Key.rho_sfam (h : Interp.SFam W n rk I) {k : Key} (hk : k.WF W) : DMat.SFam n (k.size W) (k.rank rk) fun t => (k.rho (I t)).sem := by
  cases k with
  | scalar => exact DMat.SFam.one 1
  | fac f => exact Fac.rho_sfam h hk
  | dprod d => exact DRep.rho_sfam h hk

theorem le_foldr_max {l : List ℕ} {x : ℕ} (h : x ∈ l) : x ≤ l.foldr max 0 := by
  induction l with
  | nil => simp at h
  | cons a l ih =>
    rcases mem_cons.1 h with rfl | h
    · exact le_max_left _ _
    · exact (ih h).trans (le_max_right _ _)

theorem SRep.rho_sfam (h : Interp.SFam W n rk I) {s : SRep} (hs : s.WF W) : DMat.SFam n (s.size W) ((Rep.sum s).rank rk) fun t => (s.rho (I t)).sem := by
  have e : ∀ t, (s.rho (I t)).sem = (DMat.bdiag (s.c.expand.map fun k => (k.rho (I t)).sem)).pick (argsort s.perm) (argsort s.perm) := by
    intro t
    have hsq := SRep.dsum_sq (h.sized t) hs
    unfold SRep.rho
    rw [conjPerm_sem hs.perm hsq]
    simp only [LinOp.sem]
    rw [semM_map s.c (Key.rho (I t))]
  have := DMat.SFam.bdiag s.c.expand (fun t a => (a.rho (I t)).sem) (Key.size W) ((Rep.sum s).rank rk) fun a ha =>
    (Key.rho_sfam h (hs.key a (Counter.mem_expand ha)).1).mono (le_foldr_max (mem_map_of_mem ha))
  rw [sum_map_expand] at this
  have ha : argsort s.perm ~ range (s.size W) := length_of_perm_range hs.perm ▸ argsort_perm s.perm
  rw [funext e]
  exact DMat.SFam.pick this ha

theorem Rep.mat_sfam (h : Interp.SFam W n rk I) {r : Rep} (hr : r.WF W) : DMat.SFam n (r.size W) (r.rank rk) fun t => r.mat (I t) := by
  match r, hr with
  | .key k, hr => exact Key.rho_sfam h hr
  | .sum s, hr => exact SRep.rho_sfam h hr

end

theorem ofMatrix_sfam {n m k : ℕ} {A : (Fin n → ℤˣ) → Matrix (Fin m) (Fin m) ℝ} {c : Fin m → Fin n → ℕ} (hc : ∀ i, ∑ j, c i j ≤ k)
    (h : ∀ ε, A ε = Matrix.diagonal fun i => signMon (c i) ε) : DMat.SFam n m k fun t => DMat.ofMatrix (A t) := by
  refine ⟨fun t => ⟨rfl, rfl⟩, fun i => if hi : i < m then c ⟨i, hi⟩ else 0, fun i => ?_, fun i hi j hj ε => ?_⟩
  · beta_reduce
    split_ifs
    exacts [hc _, by simp]
  · rw [DMat.ofMatrix_e _ hi hj, h, Matrix.diagonal_apply]
    simp [hi, Fin.ext_iff]

theorem signMat_mul {n : ℕ} (ε : Fin n → ℤˣ) : signMat ε * signMat ε = 1 := by
  rw [signMat, Matrix.diagonal_mul_diagonal]
  simp [sign_sq]

/-- Diagonal matrices of signs act on the atoms by such families. -/
theorem elem_sfam {W : World} {custom : ∀ k g, AtomRep ℝ (W.d g) (W.usize k g)} {g : Gid} {rk : ℕ → ℕ} (h0 : 1 ≤ rk 0)
    (hc : ∀ k, (custom k g).RankLE (rk k)) : Interp.SFam W (W.d g) rk fun ε => Interp.elem W custom g (signMat ε) := by
  have key : ∀ k g', ∃ c : Fin (W.asize k g') → Fin (W.d g) → ℕ, (∀ i, ∑ j, c i j ≤ rk k) ∧
      ∀ ε : Fin (W.d g) → ℤˣ, (stdAtoms W custom k g').rho (oneAt W g (signMat ε) g') = Matrix.diagonal fun i => signMon (c i) ε := by
    intro k g'
    by_cases e : g' = g
    · subst e
      simp only [oneAt_same]
      cases k with
      | zero =>
        refine ⟨fun (i j : Fin (W.d g')) => if i = j then 1 else 0, fun (i : Fin (W.d g')) => ?_, fun ε => ?_⟩
        · rw [Finset.sum_ite_eq]; simpa using h0
        · show signMat ε = _
          rw [signMat]
          congr 1
          funext i
          rw [signMon, Finset.prod_eq_single i]
          · simp
          · intro j _ hj; beta_reduce; rw [if_neg (Ne.symm hj), pow_zero]
          · simp
      | succ k => exact hc (k + 1)
    · refine ⟨fun _ _ => 0, fun _ => by simp, fun ε => ?_⟩
      rw [oneAt_ne e, (stdAtoms W custom k g').one]
      simp [signMon_zero]
  refine ⟨fun k g' => ?_, fun k g' => ?_⟩
  · obtain ⟨c, h1, h2⟩ := key k g'
    exact ofMatrix_sfam h1 h2
  · obtain ⟨c, h1, h2⟩ := key k g'
    refine ofMatrix_sfam (A := fun ε => ((stdAtoms W custom k g').rho (oneAt W g (signMat ε) g'))⁻¹.transpose) h1 fun ε => ?_
    have : ((stdAtoms W custom k g').rho (oneAt W g (signMat ε) g'))⁻¹ = Matrix.diagonal fun i => signMon (c i) ε := by
      refine Matrix.inv_eq_left_inv ?_
      rw [h2, Matrix.diagonal_mul_diagonal]
      simp [signMon_sq]
    rw [this, Matrix.diagonal_transpose]

end Verif
