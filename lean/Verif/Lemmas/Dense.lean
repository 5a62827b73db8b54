import Verif.Spec.Dense
import Verif.Lemmas.Perm

namespace Verif
open List NdArr
namespace DMat

section zero
variable {R : Type*} [Zero R]

@[simp] theorem pick_rows (A : DMat R) (p q : List ℕ) : (A.pick p q).rows = p.length := rfl
@[simp] theorem pick_cols (A : DMat R) (p q : List ℕ) : (A.pick p q).cols = q.length := rfl
@[simp] theorem transpose_rows (A : DMat R) : A.transpose.rows = A.cols := rfl
@[simp] theorem transpose_cols (A : DMat R) : A.transpose.cols = A.rows := rfl
@[simp] theorem bdiag2_rows (A B : DMat R) : (bdiag2 A B).rows = A.rows + B.rows := rfl
@[simp] theorem bdiag2_cols (A B : DMat R) : (bdiag2 A B).cols = A.cols + B.cols := rfl
@[simp] theorem zero_rows (m n : ℕ) : (zero m n : DMat R).rows = m := rfl
@[simp] theorem zero_cols (m n : ℕ) : (zero m n : DMat R).cols = n := rfl

theorem pick_e {A : DMat R} {p q : List ℕ} {i j : ℕ} (hi : i < p.length) (hj : j < q.length) :
    (A.pick p q).e i j = A.e (p.getD i 0) (q.getD j 0) := of_e hi hj

theorem transpose_e {A : DMat R} {i j : ℕ} : A.transpose.e i j = A.e j i := by
  by_cases h : i < A.cols ∧ j < A.rows
  · exact of_e h.1 h.2
  · rw [A.transpose.out i j h, A.out j i (fun h' => h ⟨h'.2, h'.1⟩)]

theorem transpose_transpose (A : DMat R) : A.transpose.transpose = A :=
  ext rfl rfl fun _ _ _ _ => by rw [transpose_e, transpose_e]

theorem zero_e {m n i j : ℕ} : (zero m n : DMat R).e i j = 0 := by
  unfold zero of; simp

theorem bdiag_rows (L : List (DMat R)) : (bdiag L).rows = (L.map rows).sum := by
  induction L with
  | nil => rfl
  | cons A L ih => simp [bdiag, ih]

theorem bdiag_cols (L : List (DMat R)) : (bdiag L).cols = (L.map cols).sum := by
  induction L with
  | nil => rfl
  | cons A L ih => simp [bdiag, ih]

theorem bdiag2_e11 {A B : DMat R} {i j : ℕ} (hi : i < A.rows) (hj : j < A.cols) :
    (bdiag2 A B).e i j = A.e i j := by
  unfold bdiag2; rw [of_e (by omega) (by omega)]; simp [hi, hj]

theorem bdiag2_e12 {A B : DMat R} {i j : ℕ} (hi : i < A.rows) (hj : A.cols ≤ j) :
    (bdiag2 A B).e i j = 0 := by
  unfold bdiag2
  by_cases h : j < A.cols + B.cols
  · rw [of_e (by omega) (by omega)]; simp [hi]; intro hh; omega
  · rw [(of _ _ _).out]; simp only [of_rows, of_cols]; omega

theorem bdiag2_e21 {A B : DMat R} {i j : ℕ} (hi : A.rows ≤ i) (hj : j < A.cols) :
    (bdiag2 A B).e i j = 0 := by
  unfold bdiag2
  by_cases h : i < A.rows + B.rows
  · rw [of_e (by omega) (by omega)]; simp [hj]; intro hh; omega
  · rw [(of _ _ _).out]; simp only [of_rows, of_cols]; omega

theorem bdiag2_e22 {A B : DMat R} {i j : ℕ} (hi : A.rows ≤ i) (hj : A.cols ≤ j) :
    (bdiag2 A B).e i j = B.e (i - A.rows) (j - A.cols) := by
  unfold bdiag2
  by_cases h : i < A.rows + B.rows ∧ j < A.cols + B.cols
  · rw [of_e (by omega) (by omega)]; simp [not_lt.2 hi, not_lt.2 hj]
  · rw [(of _ _ _).out _ _ (by simpa using h), B.out]; omega

theorem pick_pick (A : DMat R) {p q p' q' : List ℕ} (hp : ∀ x ∈ p', x < p.length) (hq : ∀ x ∈ q', x < q.length) :
    (A.pick p q).pick p' q' = A.pick (gather p p') (gather q q') := by
  apply ext
  · simp [gather]
  · simp [gather]
  · intro i j hi hj
    simp only [pick_rows, pick_cols] at hi hj
    rw [pick_e hi hj, pick_e (hp _ (getD_mem_of_lt hi)) (hq _ (getD_mem_of_lt hj)),
      pick_e (by simpa [gather]) (by simpa [gather]), getD_gather hi, getD_gather hj]

theorem pick_range (A : DMat R) : A.pick (range A.rows) (range A.cols) = A := by
  apply ext (by simp) (by simp)
  intro i j hi hj
  simp only [pick_rows, pick_cols, length_range] at hi hj
  rw [pick_e (by simpa) (by simpa), getD_range hi, getD_range hj]

theorem bdiag2_zero (A : DMat R) : bdiag2 A (zero 0 0) = A := by
  apply ext (by simp) (by simp)
  intro i j hi hj
  simp only [bdiag2_rows, bdiag2_cols, zero_rows, zero_cols, add_zero] at hi hj
  exact bdiag2_e11 hi hj

theorem zero_bdiag2 (A : DMat R) : bdiag2 (zero 0 0) A = A := by
  apply ext (by simp) (by simp)
  intro i j hi hj
  rw [bdiag2_e22 (by simp) (by simp)]; simp

theorem bdiag_singleton (A : DMat R) : bdiag [A] = A := by simp [bdiag, bdiag2_zero]

theorem bdiag2_assoc (A B C : DMat R) : bdiag2 (bdiag2 A B) C = bdiag2 A (bdiag2 B C) := by
  apply ext (by simp [add_assoc]) (by simp [add_assoc])
  intro i j hi hj
  rcases lt_or_ge i A.rows with h1 | h1 <;> rcases lt_or_ge j A.cols with h2 | h2
  · rw [bdiag2_e11 (by simp; omega) (by simp; omega), bdiag2_e11 h1 h2, bdiag2_e11 h1 h2]
  · rw [bdiag2_e12 h1 h2]
    rcases lt_or_ge j (A.cols + B.cols) with h3 | h3
    · rw [bdiag2_e11 (by simp; omega) (by simpa), bdiag2_e12 h1 h2]
    · rw [bdiag2_e12 (by simp; omega) (by simpa)]
  · rw [bdiag2_e21 h1 h2]
    rcases lt_or_ge i (A.rows + B.rows) with h3 | h3
    · rw [bdiag2_e11 (by simpa) (by simp; omega), bdiag2_e21 h1 h2]
    · rw [bdiag2_e21 (by simpa) (by simp; omega)]
  · rw [bdiag2_e22 (A := A) h1 h2]
    rcases lt_or_ge i (A.rows + B.rows) with h3 | h3 <;> rcases lt_or_ge j (A.cols + B.cols) with h4 | h4
    · rw [bdiag2_e11 (by simpa) (by simpa), bdiag2_e22 h1 h2, bdiag2_e11 (by omega) (by omega)]
    · rw [bdiag2_e12 (by simpa) (by simpa), bdiag2_e12 (by omega) (by omega)]
    · rw [bdiag2_e21 (by simpa) (by simpa), bdiag2_e21 (by omega) (by omega)]
    · rw [bdiag2_e22 (by simpa) (by simpa), bdiag2_e22 (by omega) (by omega)]
      simp only [bdiag2_rows, bdiag2_cols, Nat.sub_sub]

theorem bdiag_append (L M : List (DMat R)) : bdiag (L ++ M) = bdiag2 (bdiag L) (bdiag M) := by
  induction L with
  | nil => simp [bdiag, zero_bdiag2]
  | cons A L ih => simp [bdiag, ih, bdiag2_assoc]

theorem bdiag_flatMap {ι : Type*} (L : List ι) (f : ι → List (DMat R)) :
    bdiag (L.flatMap f) = bdiag (L.map fun i => bdiag (f i)) := by
  induction L with
  | nil => rfl
  | cons a L ih => simp [bdiag_append, ih, bdiag]

/-- `D` consists of the blocks `b.1` at the index lists `b.2`, zero elsewhere. -/
structure Real (D : DMat R) (L : List (DMat R × List ℕ)) : Prop where
  perm : L.flatMap (·.2) ~ range D.rows
  sq : D.cols = D.rows
  blk : ∀ b ∈ L, D.pick b.2 b.2 = b.1
  off : L.Pairwise fun b c => ∀ x ∈ b.2, ∀ y ∈ c.2, D.e x y = 0 ∧ D.e y x = 0

theorem Real.of_perm {D : DMat R} {L L' : List (DMat R × List ℕ)} (h : Real D L) (hp : L ~ L') : Real D L' where
  perm := (hp.symm.flatMap_right _).trans h.perm
  sq := h.sq
  blk b hb := h.blk b (hp.mem_iff.2 hb)
  off := hp.pairwise h.off fun hxy x hx y hy => ⟨(hxy y hy x hx).2, (hxy y hy x hx).1⟩

theorem getD_append_left' {l m : List ℕ} {i : ℕ} (h : i < l.length) : (l ++ m).getD i 0 = l.getD i 0 := by
  simp [getElem?_append_left h]

theorem getD_append_right' {l m : List ℕ} {i : ℕ} (h : l.length ≤ i) : (l ++ m).getD i 0 = m.getD (i - l.length) 0 := by
  simp [getElem?_append_right h]

theorem pick_append_bdiag2 (D : DMat R) (p q : List ℕ) (A B : DMat R)
    (hA : D.pick p p = A) (hB : D.pick q q = B)
    (h : ∀ x ∈ p, ∀ y ∈ q, D.e x y = 0 ∧ D.e y x = 0) : D.pick (p ++ q) (p ++ q) = bdiag2 A B := by
  subst hA hB
  apply ext (by simp) (by simp)
  intro i j hi hj
  rw [pick_e hi hj]
  simp only [pick_rows, pick_cols, length_append] at hi hj
  rcases lt_or_ge i p.length with h1 | h1 <;> rcases lt_or_ge j p.length with h2 | h2
  · rw [bdiag2_e11 (by simpa) (by simpa), pick_e h1 h2, getD_append_left' h1, getD_append_left' h2]
  · rw [bdiag2_e12 (by simpa) (by simpa), getD_append_left' h1, getD_append_right' h2]
    exact (h _ (getD_mem_of_lt h1) _ (getD_mem_of_lt (by omega))).1
  · rw [bdiag2_e21 (by simpa) (by simpa), getD_append_left' h2, getD_append_right' h1]
    exact (h _ (getD_mem_of_lt h2) _ (getD_mem_of_lt (by omega))).2
  · rw [bdiag2_e22 (by simpa) (by simpa), getD_append_right' h1, getD_append_right' h2,
      pick_e (by simp; omega) (by simp; omega)]
    simp

theorem pick_flatMap_bdiag (D : DMat R) (L : List (DMat R × List ℕ))
    (hb : ∀ b ∈ L, D.pick b.2 b.2 = b.1)
    (ho : L.Pairwise fun b c => ∀ x ∈ b.2, ∀ y ∈ c.2, D.e x y = 0 ∧ D.e y x = 0) :
    D.pick (L.flatMap (·.2)) (L.flatMap (·.2)) = bdiag (L.map (·.1)) := by
  induction L with
  | nil => apply ext <;> simp [bdiag]
  | cons b L ih =>
    obtain ⟨h1, h2⟩ := pairwise_cons.1 ho
    simp only [flatMap_cons, map_cons, bdiag]
    apply pick_append_bdiag2 _ _ _ _ _ (hb b (by simp)) (ih (fun c hc => hb c (by simp [hc])) h2)
    intro x hx y hy
    obtain ⟨c, hc, hy⟩ := mem_flatMap.1 hy
    exact h1 c hc x hx y hy

theorem Real.pick_eq {D : DMat R} {L : List (DMat R × List ℕ)} (h : Real D L) :
    D.pick (L.flatMap (·.2)) (L.flatMap (·.2)) = bdiag (L.map (·.1)) :=
  pick_flatMap_bdiag D L h.blk h.off

theorem append_of_pick_bdiag2 {D : DMat R} {p q : List ℕ} {A B : DMat R} (hA : A.IsSq p.length) (hB : B.IsSq q.length)
    (h : D.pick (p ++ q) (p ++ q) = bdiag2 A B) :
    D.pick p p = A ∧ D.pick q q = B ∧ ∀ x ∈ p, ∀ y ∈ q, D.e x y = 0 ∧ D.e y x = 0 := by
  have he : ∀ i j, i < p.length + q.length → j < p.length + q.length →
      D.e ((p ++ q).getD i 0) ((p ++ q).getD j 0) = (bdiag2 A B).e i j := by
    intro i j hi hj
    rw [← h, pick_e (by simpa) (by simpa)]
  refine ⟨?_, ?_, ?_⟩
  · apply ext (by simp [hA.1]) (by simp [hA.2])
    intro i j hi hj
    simp only [pick_rows, pick_cols] at hi hj
    have := he i j (by omega) (by omega)
    rw [getD_append_left' hi, getD_append_left' hj, bdiag2_e11 (by rw [hA.1]; omega) (by rw [hA.2]; omega)] at this
    rw [pick_e hi hj, this]
  · apply ext (by simp [hB.1]) (by simp [hB.2])
    intro i j hi hj
    simp only [pick_rows, pick_cols] at hi hj
    have := he (i + p.length) (j + p.length) (by omega) (by omega)
    rw [getD_append_right' (by omega), getD_append_right' (by omega), bdiag2_e22 (by rw [hA.1]; omega) (by rw [hA.2]; omega),
      hA.1, hA.2] at this
    rw [pick_e hi hj]; simpa using this
  · intro x hx y hy
    obtain ⟨i, hi, rfl⟩ := getElem_of_mem hx
    obtain ⟨j, hj, rfl⟩ := getElem_of_mem hy
    have h1 := he i (j + p.length) (by omega) (by omega)
    have h2 := he (j + p.length) i (by omega) (by omega)
    rw [getD_append_left' hi, getD_append_right' (by omega)] at h1 h2
    rw [bdiag2_e12 (by rw [hA.1]; omega) (by rw [hA.2]; omega)] at h1
    rw [bdiag2_e21 (by rw [hA.1]; omega) (by rw [hA.2]; omega)] at h2
    simp only [Nat.add_sub_cancel, getD_eq_getElem' hi, getD_eq_getElem' hj] at h1 h2
    exact ⟨h1, h2⟩

theorem Real.of_pick {D : DMat R} {L : List (DMat R × List ℕ)} (hp : L.flatMap (·.2) ~ range D.rows)
    (hsq : D.cols = D.rows) (hl : ∀ b ∈ L, b.1.IsSq b.2.length)
    (h : D.pick (L.flatMap (·.2)) (L.flatMap (·.2)) = bdiag (L.map (·.1))) : Real D L := by
  have key : (∀ b ∈ L, D.pick b.2 b.2 = b.1) ∧
      L.Pairwise fun b c => ∀ x ∈ b.2, ∀ y ∈ c.2, D.e x y = 0 ∧ D.e y x = 0 := by
    clear hp hsq
    induction L with
    | nil => simp
    | cons b L ih =>
      simp only [flatMap_cons, map_cons, bdiag] at h
      have hs : (bdiag (L.map (·.1))).IsSq (L.flatMap (·.2)).length := by
        constructor
        · rw [bdiag_rows, length_flatMap, map_map]
          congr 1; apply map_congr_left; intro c hc; exact (hl c (by simp [hc])).1
        · rw [bdiag_cols, length_flatMap, map_map]
          congr 1; apply map_congr_left; intro c hc; exact (hl c (by simp [hc])).2
      obtain ⟨h1, h2, h3⟩ := append_of_pick_bdiag2 (hl b (by simp)) hs h
      obtain ⟨i1, i2⟩ := ih (fun c hc => hl c (by simp [hc])) h2
      refine ⟨by simpa [h1] using fun c l hc => i1 (c, l) hc, pairwise_cons.2 ⟨?_, i2⟩⟩
      intro c hc x hx y hy
      exact h3 x hx y (mem_flatMap.2 ⟨c, hc, hy⟩)
  exact ⟨hp, hsq, key.1, key.2⟩

/-- pieces of a block-diagonal matrix of two realised matrices -/
theorem Real.bdiag2 {D E : DMat R} {L M : List (DMat R × List ℕ)} (hD : Real D L) (hE : Real E M) :
    Real (bdiag2 D E) (L ++ M.map fun b => (b.1, b.2.map (D.rows + ·))) := by
  have hDlt : ∀ b ∈ L, ∀ x ∈ b.2, x < D.rows := fun b hb x hx =>
    lt_of_perm_range hD.perm (mem_flatMap.2 ⟨b, hb, hx⟩)
  refine ⟨?_, ?_, ?_, ?_⟩
  · rw [flatMap_append, bdiag2_rows, range_add]
    refine Perm.append hD.perm ?_
    rw [flatMap_map]
    have := hE.perm.map (D.rows + ·)
    rwa [map_flatMap] at this
  · simp [hD.sq, hE.sq]
  · intro b hb
    rcases mem_append.1 hb with hb | hb
    · rw [← hD.blk b hb]
      apply ext (by simp) (by simp)
      intro i j hi hj
      simp only [pick_rows, pick_cols] at hi hj
      rw [pick_e hi hj, pick_e hi hj, bdiag2_e11 (hDlt b hb _ (getD_mem_of_lt hi))
        (by rw [hD.sq]; exact hDlt b hb _ (getD_mem_of_lt hj))]
    · obtain ⟨c, hc, rfl⟩ := mem_map.1 hb
      rw [← hE.blk c hc]
      apply ext (by simp) (by simp)
      intro i j hi hj
      simp only [pick_rows, pick_cols, length_map] at hi hj
      rw [pick_e (by simpa) (by simpa), pick_e hi hj]
      have e : ∀ i, i < c.2.length → (c.2.map (D.rows + ·)).getD i 0 = D.rows + c.2.getD i 0 := by
        intro i hi; rw [getD_eq_getElem' (by simpa), getD_eq_getElem' hi]; simp
      rw [e i hi, e j hj, bdiag2_e22 (by omega) (by rw [hD.sq]; omega), hD.sq]
      simp
  · rw [pairwise_append]
    refine ⟨?_, ?_, ?_⟩
    · refine hD.off.imp_of_mem ?_
      intro b c hb hc h x hx y hy
      have h1 := hDlt b hb x hx
      have h2 := hDlt c hc y hy
      rw [bdiag2_e11 h1 (by rw [hD.sq]; exact h2), bdiag2_e11 h2 (by rw [hD.sq]; exact h1)]
      exact h x hx y hy
    · rw [pairwise_map]
      refine hE.off.imp ?_
      intro b c h x hx y hy
      obtain ⟨x', hx', rfl⟩ := mem_map.1 hx
      obtain ⟨y', hy', rfl⟩ := mem_map.1 hy
      rw [bdiag2_e22 (by omega) (by rw [hD.sq]; omega), bdiag2_e22 (by omega) (by rw [hD.sq]; omega), hD.sq]
      simpa using h x' hx' y' hy'
    · intro b hb c hc x hx y hy
      obtain ⟨c, hc, rfl⟩ := mem_map.1 hc
      obtain ⟨y, hy, rfl⟩ := mem_map.1 hy
      have h1 := hDlt b hb x hx
      exact ⟨bdiag2_e12 h1 (by rw [hD.sq]; omega), bdiag2_e21 (by omega) (by rw [hD.sq]; exact h1)⟩

theorem Real.nil : Real (zero 0 0 : DMat R) [] := ⟨by simp, rfl, by simp, .nil⟩

end zero
end DMat
end Verif
