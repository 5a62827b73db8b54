import Verif.Model.Canon
import Verif.Lemmas.Perm
import Mathlib.Algebra.Group.Action.Defs

/-!
# The merge loop of `SumRep.compute_canonical`

`pcs size ks l` cuts the index list `l` into consecutive pieces of sizes `size k`, labelled by the
keys.  The main lemma says that the merge loop regroups the labelled pieces of the operands by
key, in the order of `uniq`, without altering any piece.
-/
namespace Verif
open List

variable {K : Type*} [DecidableEq K] (size : K → ℕ)

/-- Cut `l` into consecutive labelled pieces. -/
def pcs {α : Type*} : List K → List α → List (K × List α)
  | [], _ => []
  | k :: ks, l => (k, l.take (size k)) :: pcs ks (l.drop (size k))

omit [DecidableEq K] in
theorem pcs_append {α : Type*} (a b : List K) (l : List α) :
    pcs size (a ++ b) l = pcs size a l ++ pcs size b (l.drop (a.map size).sum) := by
  induction a generalizing l with
  | nil => simp [pcs]
  | cons k a ih => simp [pcs, ih, drop_drop]

omit [DecidableEq K] in
theorem pcs_take {α : Type*} (a : List K) (l : List α) {n : ℕ} (hn : (a.map size).sum ≤ n) :
    pcs size a (l.take n) = pcs size a l := by
  induction a generalizing l n with
  | nil => rfl
  | cons k a ih =>
    simp only [map_cons, sum_cons] at hn
    simp only [pcs, take_take]
    rw [min_eq_left (by omega), drop_take, ih]
    omega

omit [DecidableEq K] in
theorem pcs_append_right {α : Type*} (a : List K) (l m : List α) (hn : (a.map size).sum ≤ l.length) :
    pcs size a (l ++ m) = pcs size a l := by
  rw [← pcs_take size a (l ++ m) hn, take_left]

omit [DecidableEq K] in
theorem pcs_fst {α : Type*} (a : List K) (l : List α) : (pcs size a l).map (·.1) = a := by
  induction a generalizing l with
  | nil => rfl
  | cons k a ih => simp [pcs, ih]

omit [DecidableEq K] in
theorem pcs_flatten {α : Type*} (a : List K) (l : List α) (h : l.length = (a.map size).sum) :
    (pcs size a l).flatMap (·.2) = l := by
  induction a generalizing l with
  | nil => simp at h; simp [pcs, h]
  | cons k a ih =>
    simp only [pcs, flatMap_cons]
    rw [ih]
    · simp
    · simp at h ⊢; omega

omit [DecidableEq K] in
theorem pcs_map {α β : Type*} (f : α → β) (a : List K) (l : List α) :
    pcs size a (l.map f) = (pcs size a l).map fun p => (p.1, p.2.map f) := by
  induction a generalizing l with
  | nil => rfl
  | cons k a ih => simp [pcs, ← map_take, ← map_drop, ih]

omit [DecidableEq K] in
theorem pcs_length {α : Type*} (a : List K) (l : List α) (h : l.length = (a.map size).sum) :
    ∀ p ∈ pcs size a l, p.2.length = size p.1 := by
  induction a generalizing l with
  | nil => simp [pcs]
  | cons k a ih =>
    simp only [map_cons, sum_cons] at h
    simp only [pcs, mem_cons, forall_eq_or_imp, length_take]
    exact ⟨by omega, ih _ (by simp; omega)⟩

omit [DecidableEq K] in
theorem sum_map_expand (c : Counter K) : (c.expand.map size).sum = c.sumSize size := by
  induction c with
  | nil => rfl
  | cons kc c ih =>
    simp only [Counter.expand, flatMap_cons, map_append, sum_append, Counter.sumSize, map_cons, sum_cons] at ih ⊢
    rw [ih]; simp [mul_comm]

/-- one operand of the merge: full counter, not yet consumed items, index list, position -/
structure SOp (K : Type*) where
  c : Counter K
  rem : Counter K
  sp : List ℕ
  id : ℕ

namespace SOp
variable {size}
/-- the indices not yet consumed -/
def l (o : SOp K) : List ℕ := o.sp.drop o.id

/-- remaining items after key `k` -/
def popKey (k : K) : Counter K → Counter K
  | [] => []
  | (k', n) :: t => if k' = k then t else (k', n) :: t

/-- invariant of the merge loop -/
structure OK (size : K → ℕ) (u : List K) (o : SOp K) : Prop where
  keys : o.rem.keys = u.filter (· ∈ o.rem.keys)
  get : ∀ k ∈ u, o.c.get k = o.rem.get k
  len : o.l.length = o.rem.sumSize size

/-- state after processing `k` -/
def step (size : K → ℕ) (k : K) (o : SOp K) : SOp K :=
  ⟨o.c, popKey k o.rem, o.sp, o.id + o.c.get k * size k⟩

end SOp

theorem Counter.get_cons (k k' : K) (n : ℕ) (t : Counter K) :
    Counter.get ((k', n) :: t) k = if k = k' then n else Counter.get t k := by
  unfold Counter.get
  rw [lookup_cons]
  by_cases h : k = k'
  · subst h; simp
  · rw [beq_false_of_ne h, if_neg h]

theorem Counter.get_of_not_mem {c : Counter K} {k : K} (h : k ∉ c.keys) : c.get k = 0 := by
  induction c with
  | nil => rfl
  | cons a t ih =>
    obtain ⟨k', n⟩ := a
    simp only [Counter.keys, map_cons, mem_cons, not_or] at h
    rw [Counter.get_cons, if_neg h.1]; exact ih h.2

section step
variable {size} {k : K} {u : List K} {o : SOp K}

open SOp in
theorem SOp.OK.step_cases (h : o.OK size (k :: u)) (hk : k ∉ u) :
    (k ∉ o.rem.keys ∧ popKey k o.rem = o.rem ∧ o.c.get k = 0) ∨
    (∃ n t, o.rem = (k, n) :: t ∧ popKey k o.rem = t ∧ o.c.get k = n ∧ k ∉ Counter.keys t) := by
  have hkeys := h.keys
  by_cases hm : k ∈ o.rem.keys
  · right
    rw [filter_cons_of_pos (by simpa using hm)] at hkeys
    cases hr : o.rem with
    | nil => rw [hr] at hm; simp [Counter.keys] at hm
    | cons a t =>
      obtain ⟨k', n⟩ := a
      have hkeys' : k' :: Counter.keys t = k :: u.filter (· ∈ o.rem.keys) := by
        rw [← hkeys, hr]; rfl
      have : k' = k := by injection hkeys'
      subst this
      have ht : Counter.keys t = u.filter (· ∈ o.rem.keys) := by injection hkeys'
      refine ⟨n, t, rfl, by simp [popKey], ?_, ?_⟩
      · rw [h.get _ (by simp), hr, Counter.get_cons]; simp
      · rw [ht]; simp [hk]
  · left
    refine ⟨hm, ?_, ?_⟩
    · cases hr : o.rem with
      | nil => rfl
      | cons a t =>
        obtain ⟨k', n⟩ := a
        have : k' ≠ k := by rintro rfl; apply hm; rw [hr]; simp [Counter.keys]
        simp [popKey, this]
    · rw [h.get _ (by simp), Counter.get_of_not_mem hm]

open SOp in
theorem SOp.OK.step_ok (h : o.OK size (k :: u)) (hk : k ∉ u) : (o.step size k).OK size u := by
  rcases h.step_cases hk with ⟨h1, h2, h3⟩ | ⟨n, t, h1, h2, h3, h4⟩
  · refine ⟨?_, ?_, ?_⟩
    · simp only [SOp.step, h2]
      have := h.keys
      rwa [filter_cons_of_neg (by simpa using h1)] at this
    · intro j hj; simp only [SOp.step, h2]; exact h.get j (by simp [hj])
    · have := h.len
      simp only [SOp.step, SOp.l, h2, h3] at this ⊢
      simpa using this
  · refine ⟨?_, ?_, ?_⟩
    · simp only [SOp.step, h2]
      have := h.keys
      rw [h1, filter_cons_of_pos (by simp [Counter.keys])] at this
      have ht : Counter.keys t = u.filter (· ∈ Counter.keys ((k, n) :: t)) := by
        simp only [Counter.keys, map_cons] at this ⊢; injection this
      conv_lhs => rw [ht]
      apply filter_congr
      intro j hj
      have : j ≠ k := by rintro rfl; exact hk hj
      exact decide_eq_decide.2 (by simp [Counter.keys, this])
    · intro j hj
      have hjk : j ≠ k := by rintro rfl; exact hk hj
      simp only [SOp.step, h2]
      rw [h.get j (by simp [hj]), h1, Counter.get_cons, if_neg hjk]
    · have := h.len
      simp only [SOp.step, SOp.l, h2, h3] at this ⊢
      rw [h1] at this
      simp only [Counter.sumSize, map_cons, sum_cons] at this
      rw [← drop_drop, length_drop, this]
      simp [Counter.sumSize, mul_comm]

/-- the piece consumed for `k` -/
def SOp.piece (size : K → ℕ) (k : K) (o : SOp K) : List ℕ := o.l.take (o.c.get k * size k)

open SOp in
theorem SOp.OK.length_piece (h : o.OK size (k :: u)) (hk : k ∉ u) :
    (o.piece size k).length = o.c.get k * size k := by
  unfold piece
  rw [length_take]
  apply min_eq_left
  rcases h.step_cases hk with ⟨h1, h2, h3⟩ | ⟨n, t, h1, h2, h3, h4⟩
  · rw [h3]; simp
  · rw [h.len, h1, h3]; simp [Counter.sumSize, mul_comm]

open SOp in
theorem SOp.OK.pcs_eq (h : o.OK size (k :: u)) (hk : k ∉ u) :
    pcs size o.rem.expand o.l =
      pcs size (replicate (o.c.get k) k) (o.piece size k)
        ++ pcs size (o.step size k).rem.expand (o.step size k).l := by
  rcases h.step_cases hk with ⟨h1, h2, h3⟩ | ⟨n, t, h1, h2, h3, h4⟩
  · simp [SOp.step, h2, h3, SOp.l, pcs]
  · simp only [SOp.step, h3, SOp.l, SOp.piece]
    rw [h2, h1]
    rw [show Counter.expand ((k, n) :: t) = replicate n k ++ Counter.expand t by
      simp [Counter.expand], pcs_append, pcs_take]
    · simp
    · simp

omit [DecidableEq K] in
theorem pcs_fst_mem {α : Type*} {a : List K} {l : List α} {p : K × List α} (h : p ∈ pcs size a l) : p.1 ∈ a := by
  have := pcs_fst size a l
  rw [← this]; exact mem_map_of_mem h

omit [DecidableEq K] in
theorem Counter.mem_expand {c : Counter K} {k : K} (h : k ∈ c.expand) : k ∈ c.keys := by
  simp only [Counter.expand, mem_flatMap, mem_replicate] at h
  obtain ⟨a, ha, _, rfl⟩ := h
  exact mem_map_of_mem ha

open SOp in
theorem SOp.OK.not_mem_step (h : o.OK size (k :: u)) (hk : k ∉ u) : k ∉ (o.step size k).rem.keys := by
  rcases h.step_cases hk with ⟨h1, h2, h3⟩ | ⟨n, t, h1, h2, h3, h4⟩
  · simpa [SOp.step, h2] using h1
  · simpa [SOp.step, h2] using h4

open SOp in
theorem SOp.OK.filter_same (h : o.OK size (k :: u)) (hk : k ∉ u) :
    (pcs size o.rem.expand o.l).filter (·.1 = k) = pcs size (replicate (o.c.get k) k) (o.piece size k) := by
  rw [h.pcs_eq hk, filter_append, filter_eq_self.2, filter_eq_nil_iff.2, append_nil]
  · intro p hp
    have := Counter.mem_expand (pcs_fst_mem hp)
    have hn := h.not_mem_step hk
    simp only [decide_eq_true_eq]
    rintro rfl; exact hn this
  · intro p hp
    have := pcs_fst_mem hp
    simp at this ⊢; exact this.2

open SOp in
theorem SOp.OK.filter_other (h : o.OK size (k :: u)) (hk : k ∉ u) {j : K} (hj : j ∈ u) :
    (pcs size o.rem.expand o.l).filter (·.1 = j) =
      (pcs size (o.step size k).rem.expand (o.step size k).l).filter (·.1 = j) := by
  rw [h.pcs_eq hk, filter_append, filter_eq_nil_iff.2, nil_append]
  intro p hp
  have := pcs_fst_mem hp
  simp only [mem_replicate] at this
  simp only [decide_eq_true_eq]
  rw [this.2]; rintro rfl; exact hk hj

theorem sumInner_map (ops : List (SOp K)) :
    sumInner size k (ops.map SOp.c) (ops.map SOp.sp) (ops.map SOp.id) =
      (ops.map (SOp.piece size k), (ops.map (SOp.step size k)).map SOp.id, (ops.map fun o => o.c.get k).sum) := by
  induction ops with
  | nil => rfl
  | cons o ops ih => simp only [map_cons, sumInner, ih]; simp [SOp.piece, SOp.l, SOp.step]

theorem pcs_replicate_sum (ops : List (SOp K)) (h : ∀ o ∈ ops, (o.piece size k).length = o.c.get k * size k)
    (rest : List ℕ) :
    pcs size (replicate ((ops.map fun o => o.c.get k).sum) k) ((ops.map (SOp.piece size k)).flatten ++ rest) =
      ops.flatMap fun o => pcs size (replicate (o.c.get k) k) (o.piece size k) := by
  induction ops with
  | nil => simp [pcs]
  | cons o ops ih =>
    simp only [map_cons, sum_cons, flatten_cons, replicate_add, flatMap_cons]
    have ho := h o (by simp)
    rw [pcs_append, append_assoc, pcs_append_right _ _ _ _ (by simp [ho])]
    congr 1
    rw [← ih (fun o' ho' => h o' (by simp [ho']))]
    congr 1
    rw [map_replicate, sum_replicate, smul_eq_mul, ← ho, drop_left]

/-- The merge loop regroups the labelled pieces by key. -/
theorem sumOuter_pcs {u : List K} (hu : u.Nodup) (ops : List (SOp K)) (hops : ∀ o ∈ ops, o.OK size u) :
    let r := sumOuter size (ops.map SOp.c) (ops.map SOp.sp) u (ops.map SOp.id)
    pcs size r.1.expand r.2.flatten =
      u.flatMap fun k => ops.flatMap fun o => (pcs size o.rem.expand o.l).filter (·.1 = k) := by
  induction u generalizing ops with
  | nil => rfl
  | cons k u ih =>
    obtain ⟨hk, hu⟩ := nodup_cons.1 hu
    simp only [sumOuter, sumInner_map, flatMap_cons]
    have ih' := ih hu (ops.map (SOp.step size k)) (by
      intro o ho
      obtain ⟨o', ho', rfl⟩ := mem_map.1 ho
      exact (hops o' ho').step_ok hk)
    simp only at ih'
    have e1 : (ops.map (SOp.step size k)).map SOp.c = ops.map SOp.c := by simp [SOp.step]
    have e2 : (ops.map (SOp.step size k)).map SOp.sp = ops.map SOp.sp := by simp [SOp.step]
    rw [e1, e2] at ih'
    have hp := fun o ho => (hops o ho).length_piece hk
    rw [show Counter.expand ((k, (ops.map fun o => o.c.get k).sum) :: (sumOuter size (ops.map SOp.c) (ops.map SOp.sp) u
        ((ops.map (SOp.step size k)).map SOp.id)).1) = replicate ((ops.map fun o => o.c.get k).sum) k ++
        (sumOuter size (ops.map SOp.c) (ops.map SOp.sp) u ((ops.map (SOp.step size k)).map SOp.id)).1.expand by
        simp [Counter.expand]]
    rw [pcs_append, flatten_append, pcs_replicate_sum ops hp]
    congr 1
    · rw [flatMap_congr]
      intro o ho; rw [(hops o ho).filter_same hk]
    · have hlen : (((replicate ((ops.map fun o => o.c.get k).sum) k).map size).sum) =
          ((ops.map (SOp.piece size k)).flatten).length := by
        simp only [map_replicate, sum_replicate, smul_eq_mul, length_flatten, map_map]
        clear ih ih' hops e1 e2
        induction ops with
        | nil => simp
        | cons o ops ih2 =>
          simp only [map_cons, sum_cons, Function.comp, add_mul]
          rw [ih2 (fun o' ho' => hp o' (by simp [ho'])), hp o (by simp)]
      rw [hlen, drop_left, ih']
      apply flatMap_congr
      intro j hj
      rw [flatMap_map]
      apply flatMap_congr
      intro o ho
      rw [(hops o ho).filter_other hk hj]

end step

/-- The counter lists its keys in the order in which they occur in `u`. -/
def Consistent (u : List K) (c : Counter K) : Prop := c.keys = u.filter (· ∈ c.keys)

/-- operands with their shifted permutations -/
def shiftOps : ℕ → List (Counter K × List ℕ) → List (Counter K × List ℕ)
  | _, [] => []
  | n, (c, p) :: t => (c, p.map (n + ·)) :: shiftOps (n + p.length) t

omit [DecidableEq K] in
theorem shiftOps_fst (n : ℕ) (cps : List (Counter K × List ℕ)) :
    (shiftOps n cps).map (·.1) = cps.map (·.1) := by
  induction cps generalizing n with
  | nil => rfl
  | cons a t ih => simp [shiftOps, ih]

omit [DecidableEq K] in
theorem shiftOps_snd (n : ℕ) (cps : List (Counter K × List ℕ)) :
    (shiftOps n cps).map (·.2) = shiftPerms n (cps.map (·.2)) := by
  induction cps generalizing n with
  | nil => rfl
  | cons a t ih => simp [shiftOps, shiftPerms, ih]

omit [DecidableEq K] in
theorem shiftOps_zero (n : ℕ) (cps : List (Counter K × List ℕ)) :
    (shiftOps n cps).map (fun _ => 0) = (cps.map (·.1)).map (fun _ => 0) := by
  induction cps generalizing n with
  | nil => rfl
  | cons a t ih => simp only [shiftOps, map_cons, ih]

variable {size}

theorem shiftOps_ok {u : List K} (n : ℕ) {cps : List (Counter K × List ℕ)}
    (h : ∀ cp ∈ cps, Consistent u cp.1 ∧ cp.2.length = cp.1.sumSize size) :
    ∀ cp ∈ shiftOps n cps, Consistent u cp.1 ∧ cp.2.length = cp.1.sumSize size := by
  induction cps generalizing n with
  | nil => simp [shiftOps]
  | cons a t ih =>
    simp only [shiftOps, mem_cons, forall_eq_or_imp, length_map] at h ⊢
    exact ⟨h.1, ih _ h.2⟩

theorem sumCanon_pcs {u : List K} (hu : u.Nodup) (cps : List (Counter K × List ℕ))
    (h : ∀ cp ∈ cps, Consistent u cp.1 ∧ cp.2.length = cp.1.sumSize size) :
    let r := sumCanon size u (cps.map (·.1)) (cps.map (·.2))
    pcs size r.1.expand r.2 =
      u.flatMap fun k => (shiftOps 0 cps).flatMap fun cp => (pcs size cp.1.expand cp.2).filter (·.1 = k) := by
  have h' := shiftOps_ok 0 h
  have := sumOuter_pcs (size := size) hu ((shiftOps 0 cps).map fun cp => ⟨cp.1, cp.1, cp.2, 0⟩) (by
    intro o ho
    obtain ⟨cp, hcp, rfl⟩ := mem_map.1 ho
    exact ⟨(h' cp hcp).1, fun _ _ => rfl, by simpa [SOp.l] using (h' cp hcp).2⟩)
  simp only [map_map, Function.comp_def, flatMap_map, SOp.l, drop_zero] at this
  simp only [sumCanon]
  rw [shiftOps_fst, shiftOps_snd, shiftOps_zero] at this
  rw [← this]

theorem flatMap_filter_perm {α : Type*} {u : List K} (hu : u.Nodup) (P : List (K × α))
    (h : ∀ p ∈ P, p.1 ∈ u) : (u.flatMap fun k => P.filter (·.1 = k)) ~ P := by
  induction u generalizing P with
  | nil => cases P with
    | nil => simp
    | cons a t => exact absurd (h a (by simp)) (by simp)
  | cons k u ih =>
    obtain ⟨hk, hu⟩ := nodup_cons.1 hu
    simp only [flatMap_cons]
    have := ih hu (P.filter (·.1 ≠ k)) (by
      intro p hp
      have := h p (mem_of_mem_filter hp)
      simp at hp this; tauto)
    have e : (u.flatMap fun j => (P.filter (·.1 ≠ k)).filter (·.1 = j)) = u.flatMap fun j => P.filter (·.1 = j) := by
      apply flatMap_congr
      intro j hj
      rw [filter_filter]
      apply filter_congr
      intro p _
      by_cases hpj : p.1 = j
      · have : p.1 ≠ k := by rintro hpk; exact hk (hpk ▸ hpj ▸ hj)
        simp [hpj]; rintro rfl; exact hk hj
      · simp [hpj]
    rw [e] at this
    refine (Perm.append_left _ this).trans ?_
    convert filter_append_perm (fun p : K × α => decide (p.1 = k)) P using 3
    simp

theorem flatMap_filter_flatMap {α β : Type*} (u : List K) (L : List β) (f : β → List (K × α)) :
    (u.flatMap fun k => L.flatMap fun b => (f b).filter (·.1 = k)) =
      u.flatMap fun k => (L.flatMap f).filter (·.1 = k) := by
  apply flatMap_congr
  intro k _
  rw [filter_flatMap]

/-- **The canonical ordering of a sum permutes whole labelled pieces.** -/
theorem sumCanon_perm {u : List K} (hu : u.Nodup) (cps : List (Counter K × List ℕ))
    (h : ∀ cp ∈ cps, Consistent u cp.1 ∧ cp.2.length = cp.1.sumSize size) :
    let r := sumCanon size u (cps.map (·.1)) (cps.map (·.2))
    pcs size r.1.expand r.2 ~ (shiftOps 0 cps).flatMap fun cp => pcs size cp.1.expand cp.2 := by
  simp only
  rw [sumCanon_pcs hu cps h, flatMap_filter_flatMap]
  apply flatMap_filter_perm hu
  intro p hp
  obtain ⟨cp, hcp, hp⟩ := mem_flatMap.1 hp
  have h1 := Counter.mem_expand (pcs_fst_mem hp)
  rw [(shiftOps_ok 0 h cp hcp).1] at h1
  exact mem_of_mem_filter h1

theorem sumOuter_keys (cs : List (Counter K)) (sps : List (List ℕ)) (u : List K) (ids : List ℕ) :
    (sumOuter size cs sps u ids).1.keys = u := by
  induction u generalizing ids with
  | nil => rfl
  | cons k u ih => simp only [sumOuter, Counter.keys, map_cons]; congr 1; exact ih _

theorem sumCanon_keys (u : List K) (cs : List (Counter K)) (ps : List (List ℕ)) :
    (sumCanon size u cs ps).1.keys = u := sumOuter_keys _ _ _ _

theorem sumOuter_len {u : List K} (hu : u.Nodup) (ops : List (SOp K)) (hops : ∀ o ∈ ops, o.OK size u) :
    let r := sumOuter size (ops.map SOp.c) (ops.map SOp.sp) u (ops.map SOp.id)
    r.2.flatten.length = r.1.sumSize size := by
  induction u generalizing ops with
  | nil => rfl
  | cons k u ih =>
    obtain ⟨hk, hu⟩ := nodup_cons.1 hu
    simp only [sumOuter, sumInner_map]
    have ih' := ih hu (ops.map (SOp.step size k)) (by
      intro o ho
      obtain ⟨o', ho', rfl⟩ := mem_map.1 ho
      exact (hops o' ho').step_ok hk)
    simp only at ih'
    have e1 : (ops.map (SOp.step size k)).map SOp.c = ops.map SOp.c := by simp [SOp.step]
    have e2 : (ops.map (SOp.step size k)).map SOp.sp = ops.map SOp.sp := by simp [SOp.step]
    rw [e1, e2] at ih'
    have hp := fun o ho => (hops o ho).length_piece hk
    rw [flatten_append, length_append, ih']
    simp only [Counter.sumSize, map_cons, sum_cons]
    congr 1
    clear ih ih' hops e1 e2
    induction ops with
    | nil => simp
    | cons o ops ih2 =>
      simp only [map_cons, sum_cons, flatten_cons, length_append, mul_add]
      rw [ih2 (fun o' ho' => hp o' (by simp [ho'])), hp o (by simp), mul_comm]

theorem sumCanon_length {u : List K} (hu : u.Nodup) (cps : List (Counter K × List ℕ))
    (h : ∀ cp ∈ cps, Consistent u cp.1 ∧ cp.2.length = cp.1.sumSize size) :
    let r := sumCanon size u (cps.map (·.1)) (cps.map (·.2))
    r.2.length = r.1.sumSize size := by
  have h' := shiftOps_ok 0 h
  have := sumOuter_len (size := size) hu ((shiftOps 0 cps).map fun cp => ⟨cp.1, cp.1, cp.2, 0⟩) (by
    intro o ho
    obtain ⟨cp, hcp, rfl⟩ := mem_map.1 ho
    exact ⟨(h' cp hcp).1, fun _ _ => rfl, by simpa [SOp.l] using (h' cp hcp).2⟩)
  simp only [map_map, Function.comp_def] at this
  rw [shiftOps_fst, shiftOps_snd, shiftOps_zero] at this
  exact this

theorem sumInner_get (k : K) (cs : List (Counter K)) (sps : List (List ℕ)) (ids : List ℕ)
    (h1 : sps.length = cs.length) (h2 : ids.length = cs.length) :
    (sumInner size k cs sps ids).2.2 = (cs.map fun c => c.get k).sum ∧
    (sumInner size k cs sps ids).2.1.length = cs.length := by
  induction cs generalizing sps ids with
  | nil => cases sps <;> cases ids <;> simp_all [sumInner]
  | cons c cs ih =>
    cases sps with
    | nil => simp at h1
    | cons sp sps => cases ids with
      | nil => simp at h2
      | cons id ids =>
        have := ih sps ids (by simpa using h1) (by simpa using h2)
        simp only [sumInner, map_cons, sum_cons, length_cons]
        exact ⟨by rw [this.1], by rw [this.2]⟩

/-- The merged counter adds up the multiplicities. -/
theorem sumOuter_counter (cs : List (Counter K)) (sps : List (List ℕ)) (u : List K) (ids : List ℕ)
    (h1 : sps.length = cs.length) (h2 : ids.length = cs.length) :
    (sumOuter size cs sps u ids).1 = u.map fun k => (k, (cs.map fun c => c.get k).sum) := by
  induction u generalizing ids with
  | nil => rfl
  | cons k u ih =>
    have := sumInner_get (size := size) k cs sps ids h1 h2
    simp only [sumOuter, map_cons]
    rw [ih _ this.2, this.1]

theorem sumCanon_counter (u : List K) (cs : List (Counter K)) (ps : List (List ℕ)) (h : ps.length = cs.length) :
    (sumCanon size u cs ps).1 = u.map fun k => (k, (cs.map fun c => c.get k).sum) := by
  unfold sumCanon
  apply sumOuter_counter
  · rw [← h]; clear h
    have : ∀ n, (shiftPerms n ps).length = ps.length := by
      induction ps with
      | nil => intro n; rfl
      | cons p ps ih => intro n; simp [shiftPerms, ih]
    exact this 0
  · simp

end Verif
