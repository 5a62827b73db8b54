import Verif.Lemmas.SumCanon
import Verif.Lemmas.Dense
import Mathlib.Data.List.Zip

namespace Verif
open List NdArr

/-! ### Reindexing each axis -/

/-- axes `i, i+1, ...` reindexed by the permutations `ps` -/
def applyFrom (i : ℕ) (ps : List (List ℕ)) (idx : List ℕ) : List ℕ :=
  idx.take i ++ zipWith (fun p x => p.getD x 0) ps (idx.drop i)

theorem length_applyFrom {i : ℕ} {ps : List (List ℕ)} {idx : List ℕ} (h : idx.length = i + ps.length) :
    (applyFrom i ps idx).length = idx.length := by
  simp [applyFrom]; omega

theorem applyFrom_set {i : ℕ} {p : List ℕ} {ps : List (List ℕ)} {idx : List ℕ}
    (h : idx.length = i + (ps.length + 1)) :
    (applyFrom (i + 1) ps idx).set i (p.getD ((applyFrom (i + 1) ps idx).getD i 0) 0) = applyFrom i (p :: ps) idx := by
  have hi : i < idx.length := by omega
  unfold applyFrom
  have e : idx.drop i = idx[i] :: idx.drop (i + 1) := drop_eq_getElem_cons hi
  have e2 : idx.take (i + 1) = idx.take i ++ [idx[i]] := by rw [take_succ_eq_append_getElem hi]
  have hl : (idx.take i).length = i := by simp; omega
  rw [e, e2, zipWith_cons_cons, append_assoc, singleton_append]
  rw [set_append_right _ _ (by omega), hl, Nat.sub_self, set_cons_zero, DMat.getD_append_right' (by omega), hl]
  simp

theorem takeAxes_ofFn (ps : List (List ℕ)) (s : List ℕ) (i : ℕ) (f : List ℕ → ℕ)
    (hs : s.length = i + ps.length)
    (hp : ∀ k < ps.length, (ps.getD k []).length = s.getD (i + k) 0 ∧ ∀ x ∈ ps.getD k [], x < s.getD (i + k) 0) :
    takeAxes i ps (ofFn s f) = ofFn s fun idx => f (applyFrom i ps idx) := by
  induction ps generalizing i f with
  | nil =>
    simp only [takeAxes]
    apply NdArr.ofFn_congr
    intro idx hidx
    have hl := length_of_mem_indices hidx
    simp only [length_nil, add_zero] at hs
    simp [applyFrom, take_of_length_le (by omega : idx.length ≤ i)]
  | cons p ps ih =>
    simp only [length_cons] at hs
    have h0 := hp 0 (by simp)
    simp only [getD_cons_zero, add_zero] at h0
    simp only [takeAxes]
    rw [take_axis_moveaxis f (by omega) h0.2]
    have hset : s.set i p.length = s := by
      rw [h0.1, getD_eq_getElem' (by omega)]; simp
    rw [hset, ih (i + 1) _ (by omega)]
    · apply NdArr.ofFn_congr
      intro idx hidx
      have hl := length_of_mem_indices hidx
      rw [applyFrom_set (by omega)]
    · intro k hk
      have := hp (k + 1) (by simpa)
      rw [getD_cons_succ] at this
      rwa [show i + 1 + k = i + (k + 1) by omega]

/-! ### Product of entries -/

section entries
variable {R : Type*} [CommRing R]

/-- the entry of a Kronecker product at a pair of multi-indices -/
def prodE : List (DMat R) → List ℕ → List ℕ → R
  | M :: Ms, i :: is, j :: js => M.e i j * prodE Ms is js
  | _, _, _ => 1

open DMat

@[simp] theorem DMat.kron_rows (A B : DMat R) : (kron A B).rows = A.rows * B.rows := rfl
@[simp] theorem DMat.kron_cols (A B : DMat R) : (kron A B).cols = A.cols * B.cols := rfl
@[simp] theorem DMat.one_rows (n : ℕ) : (one n : DMat R).rows = n := rfl
@[simp] theorem DMat.one_cols (n : ℕ) : (one n : DMat R).cols = n := rfl

theorem DMat.kronL_rows (Ms : List (DMat R)) : (kronL Ms).rows = (Ms.map rows).prod := by
  induction Ms with
  | nil => rfl
  | cons A L ih => simp [kronL, ih]

theorem DMat.kronL_cols (Ms : List (DMat R)) : (kronL Ms).cols = (Ms.map cols).prod := by
  induction Ms with
  | nil => rfl
  | cons A L ih => simp [kronL, ih]

theorem DMat.kron_e {A B : DMat R} {i j i' j' : ℕ} (hi : i < A.rows) (hj : j < A.cols) (hi' : i' < B.rows)
    (hj' : j' < B.cols) : (kron A B).e (i * B.rows + i') (j * B.cols + j') = A.e i j * B.e i' j' := by
  have key : ∀ {a b n m : ℕ}, a < n → b < m → a * m + b < n * m := by
    intro a b n m h1 h2
    calc a * m + b < a * m + m := by omega
      _ = (a + 1) * m := by ring
      _ ≤ n * m := Nat.mul_le_mul_right _ h1
  unfold kron
  rw [of_e (key hi hi') (key hj hj')]
  have d1 : (i * B.rows + i') / B.rows = i := by
    rw [mul_comm, Nat.mul_add_div (by omega), Nat.div_eq_of_lt hi']; simp
  have d2 : (j * B.cols + j') / B.cols = j := by
    rw [mul_comm, Nat.mul_add_div (by omega), Nat.div_eq_of_lt hj']; simp
  have m1 : (i * B.rows + i') % B.rows = i' := by
    rw [mul_comm, Nat.mul_add_mod, Nat.mod_eq_of_lt hi']
  have m2 : (j * B.cols + j') % B.cols = j' := by
    rw [mul_comm, Nat.mul_add_mod, Nat.mod_eq_of_lt hj']
  rw [d1, d2, m1, m2]

theorem DMat.kronL_e {Ms : List (DMat R)} {idx jdx : List ℕ} (hi : idx ∈ indices (Ms.map rows))
    (hj : jdx ∈ indices (Ms.map cols)) :
    (kronL Ms).e (ravel (Ms.map rows) idx) (ravel (Ms.map cols) jdx) = prodE Ms idx jdx := by
  induction Ms generalizing idx jdx with
  | nil =>
    simp [indices] at hi hj; subst hi hj
    simp [kronL, ravel, prodE, one, of]
  | cons M Ms ih =>
    rw [map_cons, mem_indices] at hi hj
    cases hi with
    | @cons i n is s h1 h2 =>
      cases hj with
      | @cons j m js t h3 h4 =>
        have h2' := mem_indices.2 h2
        have h4' := mem_indices.2 h4
        simp only [kronL, map_cons, ravel, prodE]
        have r1 := ravel_lt h2'
        have r2 := ravel_lt h4'
        rw [← ih h2' h4', ← DMat.kronL_rows, ← DMat.kronL_cols]
        rw [DMat.kron_e h1 h3 (by rw [DMat.kronL_rows]; exact r1) (by rw [DMat.kronL_cols]; exact r2)]

theorem prodE_append {Ms Ns : List (DMat R)} {a b c d : List ℕ} (h1 : a.length = Ms.length) (h2 : c.length = Ms.length) :
    prodE (Ms ++ Ns) (a ++ b) (c ++ d) = prodE Ms a c * prodE Ns b d := by
  induction Ms generalizing a c with
  | nil =>
    simp at h1 h2; subst h1 h2; simp [prodE]
  | cons M Ms ih =>
    cases a with
    | nil => simp at h1
    | cons x a => cases c with
      | nil => simp at h2
      | cons y c => simp only [cons_append, prodE]; rw [ih (by simpa using h1) (by simpa using h2), mul_assoc]

theorem prodE_eq_range (Ms : List (DMat R)) {idx jdx : List ℕ} (h1 : idx.length = Ms.length) (h2 : jdx.length = Ms.length) :
    prodE Ms idx jdx = ((range Ms.length).map fun k => (Ms.getD k (zero 0 0)).e (idx.getD k 0) (jdx.getD k 0)).prod := by
  induction Ms generalizing idx jdx with
  | nil => simp [prodE]
  | cons M Ms ih =>
    cases idx with
    | nil => simp at h1
    | cons x a => cases jdx with
      | nil => simp at h2
      | cons y c =>
        simp only [prodE, length_cons, range_succ_eq_map, map_cons, prod_cons, map_map]
        rw [ih (by simpa using h1) (by simpa using h2)]
        rfl

theorem prodE_unperm {Ms : List (DMat R)} {axes idx jdx : List ℕ} (h : AxesOK axes) (hM : Ms.length = axes.length)
    (h1 : idx.length = axes.length) (h2 : jdx.length = axes.length) :
    prodE (axes.map fun j => Ms.getD j (zero 0 0)) idx jdx = prodE Ms (unperm axes idx) (unperm axes jdx) := by
  rw [prodE_eq_range _ (by simpa) (by simpa), prodE_eq_range Ms (by rw [length_unperm, hM]) (by rw [length_unperm, hM])]
  rw [hM, length_map]
  have : ((range axes.length).map fun k => ((axes.map fun j => Ms.getD j (zero 0 0)).getD k (zero 0 0)).e (idx.getD k 0) (jdx.getD k 0))
      = axes.map fun j => (Ms.getD j (zero 0 0)).e ((unperm axes idx).getD j 0) ((unperm axes jdx).getD j 0) := by
    apply ext_getElem (by simp)
    intro k hk hk'
    simp only [length_map, length_range] at hk
    simp only [getElem_map, getElem_range]
    have e := getD_unperm_axes (idx := idx) h hk
    have e' := getD_unperm_axes (idx := jdx) h hk
    rw [getD_eq_getElem' hk] at e e'
    rw [e, e', getD_eq_getElem' (l := axes.map _) (by simpa)]
    simp
  rw [this]
  exact (h.map _).prod_eq

end entries

/-! ### Bookkeeping of the axes -/

variable {K : Type*} [DecidableEq K]

theorem axisIds1_lookup (c : Counter K) (hc : c.keys.Nodup) (n : ℕ) (k : K) :
    ((axisIds1 n c).lookup k).getD [] = ((c.expand.zipIdx n).filter (·.1 = k)).map (·.2) := by
  induction c generalizing n with
  | nil => simp [axisIds1, Counter.expand]
  | cons a t ih =>
    obtain ⟨k', m⟩ := a
    simp only [Counter.keys, map_cons, nodup_cons] at hc
    have e : Counter.expand ((k', m) :: t) = replicate m k' ++ Counter.expand t := by simp [Counter.expand]
    rw [e, zipIdx_append, filter_append, map_append, length_replicate]
    simp only [axisIds1, lookup_cons]
    have z : (replicate m k').zipIdx n = (range m).map fun i => (k', n + i) := by
      apply ext_getElem (by simp)
      intro i h1 h2
      simp
    by_cases hk : k = k'
    · subst hk
      rw [beq_self_eq_true, z, filter_eq_self.2 (by simp), filter_eq_nil_iff.2]
      · simp
      · intro p hp
        have : p.1 ∈ Counter.expand t := by
          have := mem_map_of_mem (f := Prod.fst) hp
          rwa [zipIdx_map_fst] at this
        have := Counter.mem_expand this
        simp only [decide_eq_true_eq]
        rintro rfl
        exact hc.1 this
    · rw [beq_false_of_ne hk, z, filter_eq_nil_iff.2]
      · simp only [map_nil, nil_append]
        rw [ih hc.2]
      · simp; intro _ _; exact fun h => hk h.symm

theorem Counter.get_eq_count (c : Counter K) (hc : c.keys.Nodup) (k : K) : c.get k = c.expand.count k := by
  induction c with
  | nil => rfl
  | cons a t ih =>
    obtain ⟨k', m⟩ := a
    simp only [Counter.keys, map_cons, nodup_cons] at hc
    have e : Counter.expand ((k', m) :: t) = replicate m k' ++ Counter.expand t := by simp [Counter.expand]
    rw [e, count_append, Counter.get_cons, count_replicate]
    by_cases hk : k = k'
    · subst hk
      rw [count_eq_zero_of_not_mem]
      · simp
      · exact fun h => hc.1 (Counter.mem_expand h)
    · simp only [if_neg hk]
      rw [ih hc.2]
      simp; exact fun h => absurd h.symm hk

omit [DecidableEq K] in
theorem Counter.length_expand (c : Counter K) : c.expand.length = c.total := by
  simp [Counter.expand, Counter.total, length_flatMap]

/-- the list of all axis labels -/
def allKeys (cs : List (Counter K)) : List K := cs.flatMap Counter.expand

theorem zip_axisIds (cs : List (Counter K)) (hc : ∀ c ∈ cs, c.keys.Nodup) (n : ℕ) (k : K) :
    ((cs.zip (axisIds n cs)).flatMap fun ci => if ci.1.get k ≠ 0 then ((ci.2.lookup k).getD []) else []) =
      (((allKeys cs).zipIdx n).filter (·.1 = k)).map (·.2) := by
  induction cs generalizing n with
  | nil => simp [axisIds, allKeys]
  | cons c cs ih =>
    simp only [axisIds, zip_cons_cons, flatMap_cons, allKeys]
    rw [zipIdx_append, filter_append, map_append]
    have := ih (fun c' h' => hc c' (by simp [h'])) (n + c.total)
    rw [this, ← Counter.length_expand]
    congr 1
    rw [axisIds1_lookup c (hc c (by simp))]
    split_ifs with h
    · rfl
    · push Not at h
      rw [Counter.get_eq_count c (hc c (by simp)), count_eq_zero] at h
      symm
      rw [map_eq_nil_iff, filter_eq_nil_iff]
      intro p hp
      have hm : p.1 ∈ c.expand := by
        have := mem_map_of_mem (f := Prod.fst) hp
        rwa [zipIdx_map_fst] at this
      simp only [decide_eq_true_eq]
      rintro rfl; exact h hm

theorem sum_get (cs : List (Counter K)) (hc : ∀ c ∈ cs, c.keys.Nodup) (k : K) :
    (cs.map fun c => c.get k).sum = (allKeys cs).count k := by
  induction cs with
  | nil => rfl
  | cons c cs ih =>
    simp only [map_cons, sum_cons, allKeys, flatMap_cons, count_append]
    rw [Counter.get_eq_count c (hc c (by simp)), ih (fun c' h' => hc c' (by simp [h']))]
    rfl

/-- the labelled axes in the order of `u` -/
def labAxes (u : List K) (cs : List (Counter K)) : List (K × ℕ) :=
  u.flatMap fun k => ((allKeys cs).zipIdx).filter (·.1 = k)

theorem prodMerge_axes (u : List K) (cs : List (Counter K)) (hc : ∀ c ∈ cs, c.keys.Nodup) :
    (prodMerge cs (axisIds 0 cs) u).2 = (labAxes u cs).map (·.2) := by
  induction u with
  | nil => rfl
  | cons k u ih =>
    simp only [prodMerge, labAxes, flatMap_cons, map_append]
    rw [zip_axisIds cs hc, ih]
    rfl

theorem prodMerge_expand (u : List K) (cs : List (Counter K)) (hc : ∀ c ∈ cs, c.keys.Nodup) :
    (prodMerge cs (axisIds 0 cs) u).1.expand = (labAxes u cs).map (·.1) := by
  induction u with
  | nil => rfl
  | cons k u ih =>
    simp only [prodMerge, labAxes, flatMap_cons, map_append]
    have e : ((((allKeys cs).zipIdx).filter (·.1 = k)).map (·.1)) = replicate ((cs.map fun c => c.get k).sum) k := by
      rw [sum_get cs hc, eq_replicate_iff]
      constructor
      · rw [length_map, ← countP_eq_length_filter, count]
        conv_rhs => rw [← zipIdx_map_fst 0 (allKeys cs), countP_map]
        apply countP_congr
        intro x _; simp
      · simp
    rw [e]
    split_ifs with h
    · rw [show Counter.expand ((k, (cs.map fun c => c.get k).sum) :: (prodMerge cs (axisIds 0 cs) u).1) =
        replicate ((cs.map fun c => c.get k).sum) k ++ (prodMerge cs (axisIds 0 cs) u).1.expand by simp [Counter.expand], ih]
      rfl
    · push Not at h
      rw [h, ih]; simp [labAxes]

theorem labAxes_perm (u : List K) (hu : u.Nodup) (cs : List (Counter K)) (h : ∀ c ∈ cs, ∀ k ∈ c.keys, k ∈ u) :
    labAxes u cs ~ (allKeys cs).zipIdx := by
  apply flatMap_filter_perm hu
  intro p hp
  have : p.1 ∈ allKeys cs := by
    have := mem_map_of_mem (f := Prod.fst) hp
    rwa [zipIdx_map_fst] at this
  obtain ⟨c, hc, hp⟩ := mem_flatMap.1 this
  exact h c hc _ (Counter.mem_expand hp)

theorem labAxes_fst_eq (u : List K) (hu : u.Nodup) (cs : List (Counter K)) (h : ∀ c ∈ cs, ∀ k ∈ c.keys, k ∈ u)
    {β : Type*} (f : K → β) (d : β) :
    (labAxes u cs).map (fun p => f p.1) = (labAxes u cs).map fun p => ((allKeys cs).map f).getD p.2 d := by
  apply map_congr_left
  intro p hp
  have := (labAxes_perm u hu cs h).mem_iff.1 hp
  obtain ⟨k, i⟩ := p
  rw [mem_zipIdx_iff_getElem?] at this
  simp [this]

end Verif
