import Verif.Model.RepCall
import Verif.Lemmas.RepSum
import Verif.Lemmas.Ortho

/-! `as_dict` and the typed parts of a vector. -/
namespace Verif
open List
variable {W : World}

section sel
variable {α : Type} [Zero α]

@[simp] theorem length_sel (v : List α) (p : List ℕ) : (sel v p).length = p.length := by simp [sel]

theorem getD_sel {v : List α} {p : List ℕ} {i : ℕ} (hi : i < p.length) : (sel v p).getD i 0 = v.getD (p.getD i 0) 0 := by
  simp [sel, getD_eq_getElem?_getD, getElem?_map, getElem?_eq_getElem hi]

theorem sel_take (v : List α) (p : List ℕ) (n : ℕ) : sel v (p.take n) = (sel v p).take n := by simp [sel, map_take]
theorem sel_drop (v : List α) (p : List ℕ) (n : ℕ) : sel v (p.drop n) = (sel v p).drop n := by simp [sel, map_drop]

theorem sel_range (v : List α) : sel v (range v.length) = v := by
  refine ext_getElem (by simp) fun i h1 h2 => ?_
  simp [sel, getElem?_eq_getElem h2]

theorem sel_gather {v : List α} {p q : List ℕ} (h : ∀ x ∈ q, x < p.length) : sel v (gather p q) = sel (sel v p) q := by
  simp only [sel, gather, map_map]
  refine map_congr_left fun x hx => ?_
  simp only [Function.comp]
  have := getD_sel (v := v) (h x hx)
  simp only [sel] at this
  rw [this]

/-- Reindexing and reindexing back. -/
theorem sel_argsort {v : List α} {p : List ℕ} (hp : p ~ range v.length) : sel (sel v p) (argsort p) = v := by
  have hl := length_of_perm_range hp
  rw [← sel_gather, gather_argsort hp, sel_range]
  intro x hx
  have := lt_of_perm_range (argsort_perm p) hx
  exact this

theorem sel_sel_argsort {v : List α} {p : List ℕ} (hp : p ~ range v.length) : sel (sel v (argsort p)) p = v := by
  have hl := length_of_perm_range hp
  rw [← sel_gather, argsort_gather hp, sel_range]
  intro x hx
  rw [length_of_perm_range (argsort_perm p), hl]
  exact lt_of_perm_range hp hx

end sel

theorem DMat.permMat_mulVec {R : Type} [CommRing R] {n : ℕ} {p : List ℕ} (hp : p ~ range n) (v : List R) :
    (DMat.permMat p).mulVec v = sel v p := by
  have hl := length_of_perm_range hp
  refine DMat.vec_ext (by simp) fun i hi => ?_
  have hi' : i < p.length := by simpa using hi
  rw [DMat.getD_mulVec (A := DMat.permMat p) hi', getD_sel hi', DMat.permMat_cols,
    Finset.sum_eq_single (p.getD i 0)]
  · rw [DMat.permMat, DMat.of_e hi' (by rw [hl]; exact lt_of_perm_range hp (getD_mem_of_lt hi'))]; simp
  · intro j hj hne
    rw [DMat.permMat, DMat.of_e hi' (Finset.mem_range.1 hj), if_neg (fun h => hne h.symm), zero_mul]
  · intro h
    exact absurd (Finset.mem_range.2 (by rw [hl]; exact lt_of_perm_range hp (getD_mem_of_lt hi'))) h

section
variable {R : Type} [CommRing R] {I : Interp R}

/-- A conjugated operator acts on the reindexed vector. -/
theorem conjPerm_sel {n : ℕ} {p : List ℕ} {X : LinOp R} (hp : p ~ range n) (hX : X.sem.IsSq n) {v : List R} (hv : v.length = n) :
    sel ((conjPerm p X).sem.mulVec v) p = X.sem.mulVec (sel v p) := by
  have hl := length_of_perm_range hp
  have ha : argsort p ~ range n := hl ▸ argsort_perm p
  have hla := length_of_perm_range ha
  have hw : (X.sem.mulVec (sel v p)).length = n := by simp [hX.1]
  simp only [conjPerm, LinOp.sem]
  rw [DMat.mulVec_mul _ _ _ (by simp [hX.2, hl]), DMat.mulVec_mul _ _ _ (by simp [hX.1, hla]), DMat.permMat_mulVec hp,
    DMat.permMat_mulVec ha, sel_sel_argsort (by rw [hw]; exact hp)]

theorem pcs_bdiag (ks : List Key) (M : Key → DMat R) (hM : ∀ k ∈ ks, (M k).IsSq (k.size W)) (v : List R)
    (hv : v.length = (ks.map (Key.size W)).sum) :
    pcs (Key.size W) ks ((DMat.bdiag (ks.map M)).mulVec v) = (pcs (Key.size W) ks v).map fun p => (p.1, (M p.1).mulVec p.2) := by
  induction ks generalizing v with
  | nil => simp [pcs]
  | cons k ks ih =>
    simp only [map_cons, sum_cons] at hv
    have h1 := hM k (by simp)
    simp only [map_cons, DMat.bdiag, pcs]
    have hd : v = v.take (k.size W) ++ v.drop (k.size W) := by simp
    have e : (DMat.bdiag2 (M k) (DMat.bdiag (ks.map M))).mulVec v =
        (M k).mulVec (v.take (k.size W)) ++ (DMat.bdiag (ks.map M)).mulVec (v.drop (k.size W)) := by
      conv_lhs => rw [hd]
      exact DMat.mulVec_bdiag2 _ _ _ _ (by rw [h1.2, length_take]; omega)
    have hl : ((M k).mulVec (v.take (k.size W))).length = k.size W := by simp [h1.1]
    rw [e, take_left' hl, drop_left' hl, ih (fun j hj => hM j (by simp [hj])) _ (by simp; omega)]

/-- The labelled parts of a vector in a direct sum transform each by their own type. -/
theorem SRep.pcs_rho (hI : I.Sized W) {s : SRep} (h : s.WF W) {v : List R} (hv : v.length = s.size W) :
    pcs (Key.size W) s.c.expand (sel ((s.rho I).sem.mulVec v) s.perm) =
      (pcs (Key.size W) s.c.expand (sel v s.perm)).map fun p => (p.1, (p.1.rho I).sem.mulVec p.2) := by
  unfold SRep.rho
  rw [conjPerm_sel h.perm (SRep.dsum_sq hI h) hv]
  simp only [LinOp.sem]
  rw [semM_map s.c (Key.rho I)]
  refine pcs_bdiag s.c.expand (fun k => (k.rho I).sem) (fun k hk => Key.rho_sq hI (h.key k (Counter.mem_expand hk)).1) _ ?_
  rw [length_sel, length_of_perm_range h.perm, sum_map_expand]; rfl

end

section
variable {α : Type}

theorem rowsOf_length (n c : ℕ) (l : List α) : (rowsOf n c l).length = c := by
  induction c generalizing l with
  | zero => rfl
  | succ c ih => simp [rowsOf, ih]

theorem rowsOf_pcs {size : Key → ℕ} (k : Key) (c : ℕ) (l : List α) :
    (rowsOf (size k) c l).map (fun r => (k, r)) = pcs size (replicate c k) l := by
  induction c generalizing l with
  | zero => rfl
  | succ c ih => simp [rowsOf, pcs, replicate_succ, ih]

theorem rowsOf_take (n c : ℕ) (l : List α) : rowsOf n c (l.take (c * n)) = rowsOf n c l := by
  induction c generalizing l with
  | zero => rfl
  | succ c ih =>
    simp only [rowsOf, take_take]
    rw [min_eq_left (by rw [Nat.succ_mul]; omega), drop_take, show (c + 1) * n - n = c * n by rw [Nat.succ_mul]; omega, ih]

theorem rowsOf_mem_length {n c : ℕ} {l : List α} (hl : c * n ≤ l.length) : ∀ r ∈ rowsOf n c l, r.length = n := by
  induction c generalizing l with
  | zero => simp [rowsOf]
  | succ c ih =>
    rw [Nat.succ_mul] at hl
    simp only [rowsOf, mem_cons, forall_eq_or_imp, length_take]
    exact ⟨by omega, ih (by simp; omega)⟩

variable [Zero α]

theorem asDictLoop_pcs (size : Key → ℕ) (perm : List ℕ) (v : List α) (i : ℕ) (c : Counter Key) :
    (asDictLoop size perm v i c).flatMap (fun e => e.2.map fun r => (e.1, r)) = pcs size c.expand ((sel v perm).drop i) := by
  induction c generalizing i with
  | nil => rfl
  | cons kc t ih =>
    obtain ⟨k, c⟩ := kc
    simp only [asDictLoop, flatMap_cons, ih, Counter.expand]
    rw [pcs_append, sel_take, sel_drop, rowsOf_take, rowsOf_pcs, drop_drop]
    congr 2
    simp [map_replicate, sum_replicate]

theorem asDict_pcs (s : SRep) (v : List α) :
    (s.asDict W v).flatMap (fun e => e.2.map fun r => (e.1, r)) = pcs (Key.size W) s.c.expand (sel v s.perm) := by
  unfold SRep.asDict; rw [asDictLoop_pcs, drop_zero]

theorem asDictLoop_keys (size : Key → ℕ) (perm : List ℕ) (v : List α) (i : ℕ) (c : Counter Key) :
    (asDictLoop size perm v i c).map (fun e => (e.1, e.2.length)) = c := by
  induction c generalizing i with
  | nil => rfl
  | cons kc t ih => obtain ⟨k, c⟩ := kc; simp [asDictLoop, ih, rowsOf_length]

/-- Two labelled decompositions with the same keys and counts are determined by the sequence of labelled rows. -/
theorem dict_ext {d e : List (Key × List (List α))} (hk : d.map (fun x => (x.1, x.2.length)) = e.map fun x => (x.1, x.2.length))
    (h : d.flatMap (fun x => x.2.map fun r => (x.1, r)) = e.flatMap fun x => x.2.map fun r => (x.1, r)) : d = e := by
  induction d generalizing e with
  | nil => cases e <;> simp_all
  | cons x d ih =>
    cases e with
    | nil => simp at hk
    | cons y e =>
      simp only [map_cons, cons.injEq, Prod.mk.injEq] at hk
      simp only [flatMap_cons] at h
      obtain ⟨h1, h2⟩ := append_inj h (by simp [hk.1.2])
      have hx : x = y := by
        refine Prod.ext hk.1.1 ?_
        have := congrArg (List.map Prod.snd) h1
        simpa [Function.comp_def] using this
      rw [hx, ih hk.2 h2]

end
end Verif
