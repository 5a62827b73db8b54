import Verif.Model.Groups
import Mathlib.Data.List.GetD

/-! # Generator tables: what the filling loops produce -/
namespace Verif
open List

variable {R : Type} [Zero R]

/-- The entries of one slice. -/
abbrev Sl (R : Type) := ℕ → ℕ → R

/-- write one entry of a slice -/
def upd (f : Sl R) (i j : ℕ) (x : R) : Sl R := fun a b => if a = i ∧ b = j then x else f a b

/-- The table whose first slices are `ms` and whose other slices are zero. -/
def tab (N n : ℕ) (ms : List (Sl R)) : Arr3 R := ⟨N, n, n, fun k i j => ms.getD k (fun _ _ => 0) i j⟩

theorem zeros_eq_tab (N n : ℕ) : (Arr3.zeros N n n : Arr3 R) = tab N n [] := by
  simp [Arr3.zeros, tab]

theorem tab_append_zero (N n : ℕ) (ms : List (Sl R)) : tab N n ms = tab N n (ms ++ [fun _ _ => 0]) := by
  unfold tab
  congr 1
  funext k i j
  rcases lt_trichotomy k ms.length with h | h | h
  · rw [getD_append _ _ _ _ h]
  · subst h; simp [getD]
  · simp [getD, getElem?_append, show ¬ k < ms.length by omega, show k - ms.length ≠ 0 by omega, List.getElem?_eq_none (by omega : ms.length ≤ k)]

theorem tab_set (N n : ℕ) (ms : List (Sl R)) (f : Sl R) {i j : ℕ} (x : R) (hN : ms.length < N) (hi : i < n) (hj : j < n) :
    (tab N n (ms ++ [f])).set ms.length i j x = .ok (tab N n (ms ++ [upd f i j x])) := by
  unfold Arr3.set
  rw [if_pos (by exact ⟨hN, hi, hj⟩)]
  congr 1
  unfold tab
  simp only
  congr 1
  funext k a b
  rcases lt_trichotomy k ms.length with h | h | h
  · rw [if_neg (by omega), getD_append _ _ _ _ h, getD_append _ _ _ _ h]
  · subst h
    simp only [true_and, getD, getElem?_append_right (le_refl _), Nat.sub_self, getElem?_cons_zero, Option.getD_some, upd]
  · rw [if_neg (by omega)]
    simp [getD, getElem?_append, show ¬ k < ms.length by omega, show k - ms.length ≠ 0 by omega]

theorem foldlM_fill {α σ β : Type} (body : σ → α → Py σ) (st : List β → σ) (N : ℕ) (xs : List α) (g : α → List β)
    (h : ∀ x ∈ xs, ∀ ms : List β, ms.length + (g x).length ≤ N → body (st ms) x = .ok (st (ms ++ g x))) :
    ∀ ms : List β, ms.length + (xs.flatMap g).length ≤ N →
      xs.foldlM body (st ms) = .ok (st (ms ++ xs.flatMap g)) := by
  induction xs with
  | nil => intro ms _; simp; rfl
  | cons x xs ih =>
    intro ms hl
    simp only [flatMap_cons, length_append] at hl
    rw [foldlM_cons, h x mem_cons_self ms (by omega)]
    show foldlM body _ xs = _
    rw [ih (fun y hy => h y (mem_cons_of_mem _ hy)) _ (by simp only [length_append]; omega)]
    simp

/-- the state `(table, k)` of the loops -/
def st2 (N n : ℕ) (ms : List (Sl R)) : Arr3 R × ℕ := (tab N n ms, ms.length)

theorem mats_tab (n : ℕ) (ms : List (Sl R)) :
    (tab ms.length n ms).mats n = ms.map fun f => (Matrix.of fun i j => f i j : Matrix (Fin n) (Fin n) R) := by
  apply List.ext_getElem
  · simp [Arr3.mats, tab]
  · intro k h1 h2
    simp [Arr3.mats, tab] at h1 h2 ⊢
    funext i j
    simp [h1]


theorem flatMap_single {α β : Type*} (l : List α) (f : α → β) : (l.flatMap fun x => [f x]) = l.map f := by
  induction l with
  | nil => rfl
  | cons x l ih => simp [ih]

theorem sum_map_range (f : ℕ → ℕ) (n : ℕ) : ((range n).map f).sum = ∑ i ∈ Finset.range n, f i := by
  induction n with
  | zero => rfl
  | succ n ih => rw [range_succ, map_append, sum_append, ih, Finset.sum_range_succ]; simp

section field
variable {R : Type} [Field R]

/-- the pairs `(i,j)`, `j < i < n`, in the order of the loop -/
def lowPairs (n : ℕ) : List (ℕ × ℕ) := (range n).flatMap fun i => (range i).map fun j => (i, j)

theorem lowPairs_length (n : ℕ) : (lowPairs n).length = n * (n - 1) / 2 := by
  rw [← Finset.sum_range_id, ← sum_map_range]
  unfold lowPairs
  rw [length_flatMap]
  simp

theorem mem_lowPairs {n : ℕ} {p : ℕ × ℕ} : p ∈ lowPairs n ↔ p.2 < p.1 ∧ p.1 < n := by
  unfold lowPairs
  simp only [mem_flatMap, mem_range, mem_map]
  constructor
  · rintro ⟨i, hi, j, hj, rfl⟩; exact ⟨hj, hi⟩
  · rintro ⟨h1, h2⟩; exact ⟨p.1, h2, p.2, h1, rfl⟩

theorem nodup_pairs {α : Type*} (xs : List ℕ) (hx : xs.Nodup) (f : ℕ → List α) (hf : ∀ i, (f i).Nodup) :
    (xs.flatMap fun i => (f i).map fun j => (i, j)).Nodup := by
  rw [nodup_flatMap]
  refine ⟨fun i _ => (hf i).map fun a b h => (Prod.ext_iff.1 h).2, hx.imp ?_⟩
  intro a b hab
  simp only [Function.onFun, disjoint_left, mem_map, not_exists, not_and]
  rintro p ⟨j, _, rfl⟩ k _ h
  exact hab (Prod.ext_iff.1 h).1.symm

theorem lowPairs_nodup (n : ℕ) : (lowPairs n).Nodup := nodup_pairs _ nodup_range _ fun _ => nodup_range

/-- slice of a generator of `SO(n)` -/
def soSl (p : ℕ × ℕ) : Sl R := upd (upd (fun _ _ => 0) p.1 p.2 1) p.2 p.1 (-1)

theorem soLie_eq (n : ℕ) : (soLie n : Py (Arr3 R)) = .ok (tab (n * (n - 1) / 2) n ((lowPairs n).map soSl)) := by
  unfold soLie
  have h := foldlM_fill (σ := Arr3 R × ℕ) (fun s i =>
    (List.range i).foldlM (fun (a, k) j => do
      let a ← a.set k i j 1
      let a ← a.set k j i (-1)
      pure (a, k + 1)) s) (st2 (n * (n - 1) / 2) n) (n * (n - 1) / 2) (range n)
    (fun i => (range i).flatMap fun j => [soSl (i, j)])
    (fun i hi ms hl => foldlM_fill _ _ (n * (n - 1) / 2) _ _ (fun j hj ms hl => by
      simp only [length_singleton] at hl
      simp only [mem_range] at hi hj
      simp only [st2]
      rw [tab_append_zero, tab_set _ _ _ _ _ (by omega) hi (by omega)]
      simp only [bind, Except.bind]
      rw [tab_set _ _ _ _ _ (by omega) (by omega) hi]
      simp [soSl, pure, Except.pure]) ms hl) []
    (by
      simp only [flatMap_single, length_flatMap, length_map, length_range, length_nil, Nat.zero_add, sum_map_range,
        Finset.sum_range_id]
      exact le_refl _)
  rw [zeros_eq_tab]
  simp only [st2, length_nil] at h
  rw [h]
  simp only [bind, Except.bind, pure, Except.pure, nil_append, lowPairs, map_flatMap, map_map, flatMap_single]
  rfl

/-- all pairs `(i,j)`, in the order of a double loop -/
def allPairs (m n : ℕ) : List (ℕ × ℕ) := (range m).flatMap fun i => (range n).map fun j => (i, j)

theorem allPairs_length (m n : ℕ) : (allPairs m n).length = m * n := by
  unfold allPairs
  rw [length_flatMap]
  simp

theorem mem_allPairs {m n : ℕ} {p : ℕ × ℕ} : p ∈ allPairs m n ↔ p.1 < m ∧ p.2 < n := by
  unfold allPairs
  simp only [mem_flatMap, mem_range, mem_map]
  constructor
  · rintro ⟨i, hi, j, hj, rfl⟩; exact ⟨hi, hj⟩
  · rintro ⟨h1, h2⟩; exact ⟨p.1, h1, p.2, h2, rfl⟩

theorem allPairs_nodup (m n : ℕ) : (allPairs m n).Nodup := nodup_pairs _ nodup_range _ fun _ => nodup_range

/-- slice of a generator of `GL(n)` -/
def glSl (p : ℕ × ℕ) : Sl R := upd (fun _ _ => 0) p.1 p.2 1

theorem glLie_eq (n : ℕ) : (glLie n : Py (Arr3 R)) = .ok (tab (n * n) n ((allPairs n n).map glSl)) := by
  unfold glLie
  have h := foldlM_fill (σ := Arr3 R × ℕ) (fun s i =>
    (List.range n).foldlM (fun (a, k) j => do
      let a ← a.set k i j 1
      pure (a, k + 1)) s) (st2 (n * n) n) (n * n) (range n)
    (fun i => (range n).flatMap fun j => [glSl (i, j)])
    (fun i hi ms hl => foldlM_fill _ _ (n * n) _ _ (fun j hj ms hl => by
      simp only [length_singleton] at hl
      simp only [mem_range] at hi hj
      simp only [st2]
      rw [tab_append_zero, tab_set _ _ _ _ _ (by omega) hi (by omega)]
      simp [bind, Except.bind, glSl, pure, Except.pure]) ms hl) []
    (by simp [flatMap_single, length_flatMap])
  rw [zeros_eq_tab]
  simp only [st2, length_nil] at h
  rw [h]
  simp only [bind, Except.bind, pure, Except.pure, nil_append, allPairs, map_flatMap, map_map, flatMap_single]
  rfl

/-- the pairs `i ≠ j` below `n`, in the order of the loop -/
def offPairs (n : ℕ) : List (ℕ × ℕ) := (range n).flatMap fun i => ((range n).filter fun j => i ≠ j).map fun j => (i, j)

theorem mem_offPairs {n : ℕ} {p : ℕ × ℕ} : p ∈ offPairs n ↔ p.1 < n ∧ p.2 < n ∧ p.1 ≠ p.2 := by
  unfold offPairs
  simp only [mem_flatMap, mem_range, mem_map, mem_filter, decide_eq_true_eq]
  constructor
  · rintro ⟨i, hi, j, hj, rfl⟩; exact ⟨hi, hj⟩
  · rintro ⟨h1, h2, h3⟩; exact ⟨p.1, h1, p.2, ⟨h2, h3⟩, rfl⟩

theorem offPairs_nodup (n : ℕ) : (offPairs n).Nodup :=
  nodup_pairs _ nodup_range _ fun _ => nodup_range.filter _

theorem offPairs_length (n : ℕ) : (offPairs n).length = n * (n - 1) := by
  unfold offPairs
  rw [length_flatMap]
  have : ∀ i ∈ range n, (((range n).filter fun j => i ≠ j).map fun j => (i, j)).length = n - 1 := by
    intro i hi
    rw [length_map]
    have h2 : ((range n).filter fun j => i ≠ j) = (range n).erase i := by
      rw [nodup_range.erase_eq_filter]
      apply filter_congr
      intro x _
      by_cases h : i = x
      · simp [h]
      · simp [h, bne_iff_ne, Ne.symm h]
    rw [h2, length_erase_of_mem hi, length_range]
  rw [map_congr_left this]
  simp

/-- slice of a diagonal generator of `SL(n)` -/
def slDiag (n l : ℕ) : Sl R := upd (upd (fun _ _ => 0) l l 1) (n - 1) (n - 1) (-1)

theorem slLie_eq (n : ℕ) (hn : n ≠ 0) : (slLie n : Py (Arr3 R)) =
    .ok (tab (n * n - 1) n ((offPairs n).map glSl ++ (range (n - 1)).map (slDiag n))) := by
  have hlen : n * (n - 1) + (n - 1) = n * n - 1 := by
    obtain ⟨m, rfl⟩ := Nat.exists_eq_succ_of_ne_zero hn
    simp only [Nat.succ_eq_add_one, Nat.add_sub_cancel]
    rw [show (m + 1) * (m + 1) = (m + 1) * m + m + 1 by ring]
    omega
  unfold slLie
  rw [if_neg hn]
  have h := foldlM_fill (σ := Arr3 R × ℕ) (fun s i =>
    (List.range n).foldlM (fun (a, k) j => do
      if i = j then pure (a, k) else
      let a ← a.set k i j 1
      pure (a, k + 1)) s) (st2 (n * n - 1) n) (n * n - 1) (range n)
    (fun i => (range n).flatMap fun j => if i = j then [] else [glSl (i, j)])
    (fun i hi ms hl => foldlM_fill _ _ (n * n - 1) _ _ (fun j hj ms hl => by
      simp only [mem_range] at hi hj
      simp only [st2]
      split
      · simp [pure, Except.pure]
      · rename_i hij
        rw [if_neg hij] at hl
        simp only [length_singleton] at hl
        rw [tab_append_zero, tab_set _ _ _ _ _ (by omega) hi (by omega)]
        simp [bind, Except.bind, glSl, pure, Except.pure]) ms hl)
  have hfm : ((range n).flatMap fun i => (range n).flatMap fun j => if i = j then [] else [(glSl (i, j) : Sl R)]) =
      (offPairs n).map glSl := by
    unfold offPairs
    rw [map_flatMap]
    congr 1
    funext i
    rw [map_map]
    induction range n with
    | nil => rfl
    | cons x l ih =>
      rw [flatMap_cons, ih, filter_cons]
      by_cases hx : i = x
      · simp [hx]
      · simp [hx]
  have h1 := h [] (by rw [hfm, length_map, offPairs_length]; simp only [length_nil]; omega)
  have h2 := foldlM_fill (σ := Arr3 R × ℕ) (fun (a, k) l => do
    let a ← a.set k l l 1
    let a ← a.set k (n - 1) (n - 1) (-1)
    pure (a, k + 1)) (st2 (n * n - 1) n) (n * n - 1) (range (n - 1)) (fun l => [slDiag n l])
    (fun l hl ms hms => by
      simp only [length_singleton] at hms
      simp only [mem_range] at hl
      simp only [st2]
      rw [tab_append_zero, tab_set _ _ _ _ _ (by omega) (by omega) (by omega)]
      simp only [bind, Except.bind]
      rw [tab_set _ _ _ _ _ (by omega) (by omega) (by omega)]
      simp [slDiag, pure, Except.pure]) ((offPairs n).map glSl)
    (by rw [length_map, offPairs_length, flatMap_single, length_map, length_range]; omega)
  rw [zeros_eq_tab]
  rw [hfm, nil_append] at h1
  rw [flatMap_single] at h2
  simp only [st2, length_nil] at h1 h2
  simp only [pure_bind]
  rw [h1]
  show Except.bind (foldlM _ _ _) _ = _
  rw [h2]
  rfl

/-- slice of a block-diagonal generator of `Sp(m)` -/
def spA (m : ℕ) (p : ℕ × ℕ) : Sl R := upd (upd (fun _ _ => 0) p.1 p.2 1) (m + p.2) (m + p.1) (-1)
/-- slice of a lower-left generator of `Sp(m)` -/
def spC (m : ℕ) (p : ℕ × ℕ) : Sl R := upd (upd (fun _ _ => 0) (m + p.1) p.2 1) (m + p.2) p.1 1
/-- slice of an upper-right generator of `Sp(m)` -/
def spB (m : ℕ) (p : ℕ × ℕ) : Sl R := upd (upd (fun _ _ => 0) p.1 (m + p.2) 1) p.2 (m + p.1) 1

/-- the pairs `j ≤ i < n`, in the order of the loop -/
def lePairs (n : ℕ) : List (ℕ × ℕ) := (range n).flatMap fun i => (range (i + 1)).map fun j => (i, j)

theorem mem_lePairs {n : ℕ} {p : ℕ × ℕ} : p ∈ lePairs n ↔ p.2 ≤ p.1 ∧ p.1 < n := by
  unfold lePairs
  simp only [mem_flatMap, mem_range, mem_map]
  constructor
  · rintro ⟨i, hi, j, hj, rfl⟩; exact ⟨Nat.lt_succ_iff.1 hj, hi⟩
  · rintro ⟨h1, h2⟩; exact ⟨p.1, h2, p.2, Nat.lt_succ_iff.2 h1, rfl⟩

theorem lePairs_nodup (n : ℕ) : (lePairs n).Nodup := nodup_pairs _ nodup_range _ fun _ => nodup_range

theorem lePairs_length (n : ℕ) : 2 * (lePairs n).length = n * (n + 1) := by
  have : (lePairs n).length = ∑ i ∈ Finset.range (n + 1), i := by
    rw [Finset.sum_range_succ', ← sum_map_range]
    unfold lePairs
    rw [length_flatMap]
    simp
  rw [this, mul_comm 2, Finset.sum_range_id_mul_two]
  simp only [Nat.add_sub_cancel]
  ring

/-- the two generators of `Sp(m)` written in one round of the second loop -/
def spCB (m : ℕ) (p : ℕ × ℕ) : List (Sl R) := [spC m p, spB m p]

theorem spLie_eq (m : ℕ) : (spLie m : Py (Arr3 R)) =
    .ok (tab (m * (2 * m + 1)) (2 * m) ((allPairs m m).map (spA m) ++ (lePairs m).flatMap (spCB m))) := by
  have hlen : m * m + 2 * (lePairs m).length = m * (2 * m + 1) := by rw [lePairs_length]; ring
  have hl2 : ((lePairs m).flatMap (spCB m) : List (Sl R)).length = 2 * (lePairs m).length := by
    rw [length_flatMap]
    simp [spCB, mul_comm]
  unfold spLie
  have h := foldlM_fill (σ := Arr3 R × ℕ) (fun s i =>
    (List.range m).foldlM (fun (a, k) j => do
      let a ← a.set k i j 1
      let a ← a.set k (m + j) (m + i) (-1)
      pure (a, k + 1)) s) (st2 (m * (2 * m + 1)) (2 * m)) (m * (2 * m + 1)) (range m)
    (fun i => (range m).flatMap fun j => [spA m (i, j)])
    (fun i hi ms hl => foldlM_fill _ _ (m * (2 * m + 1)) _ _ (fun j hj ms hl => by
      simp only [length_singleton] at hl
      simp only [mem_range] at hi hj
      simp only [st2]
      rw [tab_append_zero, tab_set _ _ _ _ _ (by omega) (by omega) (by omega)]
      simp only [bind, Except.bind]
      rw [tab_set _ _ _ _ _ (by omega) (by omega) (by omega)]
      simp [spA, pure, Except.pure]) ms hl)
  have hfm : ((range m).flatMap fun i => (range m).flatMap fun j => [(spA m (i, j) : Sl R)]) =
      (allPairs m m).map (spA m) := by
    simp only [allPairs, map_flatMap, map_map, flatMap_single]
    rfl
  have h1 := h [] (by rw [hfm, length_map, allPairs_length]; simp only [length_nil]; omega)
  have g := foldlM_fill (σ := Arr3 R × ℕ) (fun s i =>
    (List.range (i + 1)).foldlM (fun (a, k) j => do
      let a ← a.set k (m + i) j 1
      let a ← a.set k (m + j) i 1
      let k := k + 1
      let a ← a.set k i (m + j) 1
      let a ← a.set k j (m + i) 1
      pure (a, k + 1)) s) (st2 (m * (2 * m + 1)) (2 * m)) (m * (2 * m + 1)) (range m)
    (fun i => (range (i + 1)).flatMap fun j => spCB m (i, j))
    (fun i hi ms hl => foldlM_fill _ _ (m * (2 * m + 1)) _ _ (fun j hj ms hl => by
      simp only [spCB, length_cons, length_nil] at hl
      simp only [mem_range] at hi hj
      simp only [st2]
      rw [tab_append_zero, tab_set _ _ _ _ _ (by omega) (by omega) (by omega)]
      simp only [bind, Except.bind]
      rw [tab_set _ _ _ _ _ (by omega) (by omega) (by omega)]
      simp only [bind, Except.bind]
      have hk : ms.length + 1 = (ms ++ [(spC m (i, j) : Sl R)]).length := by simp
      have e1 : upd (upd (fun _ _ => 0) (m + i) j 1) (m + j) i 1 = (spC m (i, j) : Sl R) := rfl
      rw [e1, tab_append_zero, hk, tab_set _ _ _ _ _ (by simp; omega) (by omega) (by omega)]
      simp only [bind, Except.bind]
      rw [tab_set _ _ _ _ _ (by simp; omega) (by omega) (by omega)]
      simp [spCB, spB, pure, Except.pure]) ms hl)
  have hfm2 : ((range m).flatMap fun i => (range (i + 1)).flatMap fun j => (spCB m (i, j) : List (Sl R))) =
      (lePairs m).flatMap (spCB m) := by
    simp only [lePairs, flatMap_assoc, flatMap_map]
  have h2 := g ((allPairs m m).map (spA m)) (by rw [hfm2, length_map, allPairs_length]; omega)
  rw [hfm, nil_append] at h1
  rw [hfm2] at h2
  rw [zeros_eq_tab]
  simp only [st2, length_nil] at h1 h2
  rw [h1]
  show Except.bind (foldlM _ _ _) _ = _
  rw [h2]
  rfl

/-- the state `(real table, imaginary table, k)` of the loops of `U` and `SU` -/
def st3 (N n : ℕ) (ms : List (Sl R × Sl R)) : Arr3 R × Arr3 R × ℕ :=
  (tab N n (ms.map Prod.fst), tab N n (ms.map Prod.snd), ms.length)

/-- zero slice -/
def zSl : Sl R := fun _ _ => 0

/-- symmetric imaginary slice -/
def usSl (p : ℕ × ℕ) : Sl R := upd (upd (fun _ _ => 0) p.1 p.2 1) p.2 p.1 1

/-- the two generators of `U(n)` written in one round of the first loop -/
def uSl2 (p : ℕ × ℕ) : List (Sl R × Sl R) := [(soSl p, zSl), (zSl, usSl p)]

theorem tab_zSl (N n : ℕ) (ms : List (Sl R)) : tab N n (ms ++ [zSl]) = tab N n ms := (tab_append_zero N n ms).symm

theorem uLoop_eq (N n : ℕ) (hN : n * (n - 1) ≤ N) : uLoop n ((Arr3.zeros N n n : Arr3 R), (Arr3.zeros N n n : Arr3 R), 0) =
    .ok (st3 N n ((lowPairs n).flatMap uSl2)) := by
  unfold uLoop
  have h := foldlM_fill (σ := Arr3 R × Arr3 R × ℕ) (fun s i =>
    (List.range i).foldlM (fun (re, im, k) j => do
      let re ← re.set k i j 1
      let re ← re.set k j i (-1)
      let k := k + 1
      let im ← im.set k i j 1
      let im ← im.set k j i 1
      pure (re, im, k + 1)) s) (st3 N n) N (range n)
    (fun i => (range i).flatMap fun j => uSl2 (i, j))
    (fun i hi ms hl => foldlM_fill _ _ N _ _ (fun j hj ms hl => by
      simp only [uSl2, length_cons, length_nil] at hl
      simp only [mem_range] at hi hj
      simp only [st3]
      have hk : ms.length = (ms.map Prod.fst).length := by simp
      have hk2 : ms.length + 1 = (ms.map Prod.snd ++ [(zSl : Sl R)]).length := by simp
      rw [hk2]
      conv_lhs => rw [hk]
      rw [tab_append_zero, tab_set _ _ _ _ _ (by simp; omega) (by omega) (by omega)]
      simp only [bind, Except.bind]
      rw [tab_set _ _ _ _ _ (by simp; omega) (by omega) (by omega)]
      simp only [bind, Except.bind]
      rw [← tab_zSl N n (ms.map Prod.snd), tab_append_zero N n (ms.map Prod.snd ++ [zSl]),
        tab_set _ _ _ _ _ (by simp; omega) (by omega) (by omega)]
      simp only [bind, Except.bind]
      rw [tab_set _ _ _ _ _ (by simp; omega) (by omega) (by omega)]
      have e1 : upd (upd (fun _ _ => 0) i j 1) j i (-1) = (soSl (i, j) : Sl R) := rfl
      have e2 : upd (upd (fun _ _ => 0) i j 1) j i 1 = (usSl (i, j) : Sl R) := rfl
      rw [e1, e2, ← tab_zSl N n (ms.map Prod.fst ++ [soSl (i, j)])]
      simp [uSl2, pure, Except.pure]) ms hl) []
    (by
      have : ((range n).flatMap fun i => (range i).flatMap fun j => (uSl2 (i, j) : List (Sl R × Sl R))).length = n * (n - 1) := by
        simp only [uSl2, length_flatMap, length_cons, length_nil, map_const', length_range, sum_replicate, smul_eq_mul, sum_map_range]
        rw [← Finset.sum_mul, Finset.sum_range_id_mul_two]
      rw [this]; simpa using hN)
  rw [zeros_eq_tab]
  simp only [lowPairs, flatMap_assoc, flatMap_map]
  exact h

theorem uSl2_length (n : ℕ) : ((lowPairs n).flatMap uSl2 : List (Sl R × Sl R)).length = n * (n - 1) := by
  have : ∀ l : List (ℕ × ℕ), (l.flatMap uSl2 : List (Sl R × Sl R)).length = l.length * 2 := by
    intro l
    induction l with
    | nil => rfl
    | cons x l ih => rw [flatMap_cons, length_append, ih]; simp [uSl2]; ring
  rw [this, lowPairs_length, ← Finset.sum_range_id, Finset.sum_range_id_mul_two]

/-- a diagonal generator of `U(n)` -/
def uDiag (i : ℕ) : Sl R × Sl R := (zSl, upd (fun _ _ => 0) i i 1)

theorem uLie_eq (n : ℕ) : (uLie n : Py (Arr3 R × Arr3 R)) =
    .ok ((tab (n ^ 2) n (((lowPairs n).flatMap uSl2 ++ (range n).map uDiag).map Prod.fst)),
      (tab (n ^ 2) n (((lowPairs n).flatMap uSl2 ++ (range n).map uDiag).map Prod.snd))) := by
  have hlen : n * (n - 1) + n = n ^ 2 := by
    cases n with
    | zero => rfl
    | succ m => simp only [Nat.add_sub_cancel]; ring
  unfold uLie
  rw [uLoop_eq _ _ (by omega)]
  have h := foldlM_fill (σ := Arr3 R × Arr3 R × ℕ) (fun (re, im, k) i => do
    let im ← im.set k i i 1
    pure (re, im, k + 1)) (st3 (n ^ 2) n) (n ^ 2) (range n) (fun i => [uDiag i])
    (fun i hi ms hl => by
      simp only [length_singleton] at hl
      simp only [mem_range] at hi
      simp only [st3]
      have hk : ms.length = (ms.map Prod.snd).length := by simp
      conv_lhs => rw [hk]
      rw [tab_append_zero _ n (ms.map Prod.snd), tab_set _ _ _ _ _ (by simp; omega) (by omega) (by omega)]
      simp only [bind, Except.bind]
      rw [← tab_zSl _ n (ms.map Prod.fst)]
      simp [uDiag, pure, Except.pure]) ((lowPairs n).flatMap uSl2)
    (by rw [uSl2_length, flatMap_single, length_map, length_range]; omega)
  rw [flatMap_single] at h
  show Except.bind (foldlM _ _ _) _ = _
  rw [h]
  rfl

/-- a diagonal generator of `SU(n)` (imaginary part) -/
def suDiagSl (n i : ℕ) : Sl R :=
  (range n).foldl (fun f j => if i = j then f else upd f j j (-1 / ((n : R) - 1))) (upd (fun _ _ => 0) i i 1)

/-- a diagonal generator of `SU(n)` -/
def suDiag (n i : ℕ) : Sl R × Sl R := (zSl, suDiagSl n i)

theorem foldlM_slice (N n : ℕ) (ms : List (Sl R)) (hN : ms.length < N) (i : ℕ) (x : R) (l : List ℕ) (hl : ∀ j ∈ l, j < n) :
    ∀ f : Sl R, l.foldlM (fun im j => do
      if i = j then pure im else im.set ms.length j j x) (tab N n (ms ++ [f])) =
      (.ok (tab N n (ms ++ [l.foldl (fun f j => if i = j then f else upd f j j x) f])) : Py (Arr3 R)) := by
  induction l with
  | nil => intro f; rfl
  | cons j l ih =>
    intro f
    rw [foldlM_cons, foldl_cons]
    have hj := hl j mem_cons_self
    split
    · rw [pure_bind]; exact ih (fun k hk => hl k (mem_cons_of_mem _ hk)) f
    · rw [tab_set _ _ _ _ _ hN hj hj]
      exact ih (fun k hk => hl k (mem_cons_of_mem _ hk)) _

theorem suLie_eq (n : ℕ) (hn : 2 ≤ n) : (suLie n : Py (Arr3 R × Arr3 R)) =
    .ok ((tab (n ^ 2 - 1) n (((lowPairs n).flatMap uSl2 ++ (range (n - 1)).map (suDiag n)).map Prod.fst)),
      (tab (n ^ 2 - 1) n (((lowPairs n).flatMap uSl2 ++ (range (n - 1)).map (suDiag n)).map Prod.snd))) := by
  have hlen : n * (n - 1) + (n - 1) = n ^ 2 - 1 := by
    obtain ⟨m, rfl⟩ := Nat.exists_eq_succ_of_ne_zero (by omega : n ≠ 0)
    simp only [Nat.succ_eq_add_one, Nat.add_sub_cancel]
    rw [show (m + 1) ^ 2 = (m + 1) * m + m + 1 by ring]
    omega
  unfold suLie
  rw [if_neg (by omega), if_neg (by omega)]
  simp only [pure_bind]
  rw [uLoop_eq _ _ (by omega)]
  have h := foldlM_fill (σ := Arr3 R × Arr3 R × ℕ) (fun (re, im, k) i => do
    let im ← im.set k i i 1
    let im ← (List.range n).foldlM (fun im j => do
      if i = j then pure im else
      im.set k j j (-1 / ((n : R) - 1))) im
    pure (re, im, k + 1)) (st3 (n ^ 2 - 1) n) (n ^ 2 - 1) (range (n - 1)) (fun i => [suDiag n i])
    (fun i hi ms hl => by
      simp only [length_singleton] at hl
      simp only [mem_range] at hi
      simp only [st3]
      have hk : ms.length = (ms.map Prod.snd).length := by simp
      conv_lhs => rw [hk]
      rw [tab_append_zero _ n (ms.map Prod.snd), tab_set _ _ _ _ _ (by simp; omega) (by omega) (by omega)]
      simp only [bind, Except.bind]
      have := foldlM_slice (n ^ 2 - 1) n (ms.map Prod.snd) (by simp; omega) i (-1 / ((n : R) - 1)) (range n)
        (fun j hj => mem_range.1 hj) (upd (fun _ _ => 0) i i 1)
      rw [this]
      rw [← tab_zSl _ n (ms.map Prod.fst)]
      simp [suDiag, suDiagSl, pure, Except.pure]) ((lowPairs n).flatMap uSl2)
    (by rw [uSl2_length, flatMap_single, length_map, length_range]; omega)
  rw [flatMap_single] at h
  show Except.bind (foldlM _ _ _) _ = _
  rw [h]
  rfl

end field
end Verif
