import Verif.Lemmas.Kron
import Verif.Lemmas.NpSwap

namespace Verif
open List NdArr

theorem flatMap_comm {α β γ : Type*} (l : List α) (m : List β) (f : α → β → List γ) :
    (l.flatMap fun a => m.flatMap fun b => f a b) ~ (m.flatMap fun b => l.flatMap fun a => f a b) := by
  induction l with
  | nil => simp
  | cons a l ih =>
    simp only [flatMap_cons]
    refine (Perm.append_left _ ih).trans ?_
    clear ih
    induction m with
    | nil => simp
    | cons b m ihm =>
      simp only [flatMap_cons, append_assoc]
      refine Perm.append_left _ ?_
      refine Perm.trans ?_ (Perm.append_left _ ihm)
      rw [← append_assoc, ← append_assoc]
      exact Perm.append_right _ perm_append_comm

theorem mem_prodPos {n : ℕ} {p q : List ℕ} {z : ℕ} : z ∈ prodPos n p q ↔ ∃ x ∈ p, ∃ y ∈ q, z = x * n + y := by
  simp only [prodPos, mem_flatMap, mem_map]
  constructor
  · rintro ⟨x, hx, y, hy, rfl⟩; exact ⟨x, hx, y, hy, rfl⟩
  · rintro ⟨x, hx, y, hy, rfl⟩; exact ⟨x, hx, y, hy, rfl⟩

namespace DMat
variable {R : Type*} [CommRing R]

theorem Real.lt {D : DMat R} {L : List (DMat R × List ℕ)} (h : Real D L) {b} (hb : b ∈ L) {x : ℕ} (hx : x ∈ b.2) :
    x < D.rows := lt_of_perm_range h.perm (mem_flatMap.2 ⟨b, hb, hx⟩)

theorem Real.kron {D E : DMat R} {L M : List (DMat R × List ℕ)} (hD : Real D L) (hE : Real E M) :
    Real (kron D E) (L.flatMap fun b => M.map fun c => (DMat.kron b.1 c.1, prodPos E.rows b.2 c.2)) := by
  refine ⟨?_, ?_, ?_, ?_⟩
  · have e1 : (L.flatMap fun b => M.map fun c => (DMat.kron b.1 c.1, prodPos E.rows b.2 c.2)).flatMap (·.2) =
        L.flatMap fun b => M.flatMap fun c => b.2.flatMap fun x => c.2.map (x * E.rows + ·) := by
      rw [flatMap_assoc]
      congr 1; funext b
      rw [flatMap_map]; rfl
    have e2 : (L.flatMap fun b => b.2.flatMap fun x => M.flatMap fun c => c.2.map (x * E.rows + ·)) =
        prodPos E.rows (L.flatMap (·.2)) (M.flatMap (·.2)) := by
      unfold prodPos
      rw [flatMap_assoc]
      congr 1; funext b; congr 1; funext x
      rw [map_flatMap]
    rw [e1, kron_rows]
    refine (Perm.flatMap_left L fun b _ => flatMap_comm M b.2 _).trans ?_
    rw [e2, ← prodPos_range]
    unfold prodPos
    exact (hD.perm.flatMap_right _).trans (Perm.flatMap_left _ fun x _ => hE.perm.map _)
  · simp [hD.sq, hE.sq]
  · intro bc h
    obtain ⟨b, hb, h⟩ := mem_flatMap.1 h
    obtain ⟨c, hc, rfl⟩ := mem_map.1 h
    simp only
    have hD1 : ∀ x ∈ b.2, x < D.rows := fun x hx => hD.lt hb hx
    have hE1 : ∀ x ∈ c.2, x < E.rows := fun x hx => hE.lt hc hx
    have := kron_pick D E hD1 hE1 (p' := b.2) (q' := c.2) (by rw [hD.sq]; exact hD1) (by rw [hE.sq]; exact hE1)
    rw [hE.sq, hD.blk b hb, hE.blk c hc] at this
    exact this
  · rw [pairwise_flatMap]
    have ent : ∀ x x' y y', x < D.rows → x' < D.rows → y < E.rows → y' < E.rows →
        (DMat.kron D E).e (x * E.rows + y) (x' * E.rows + y') = D.e x x' * E.e y y' := by
      intro x x' y y' h1 h2 h3 h4
      have := kron_e (A := D) (B := E) (i := x) (j := x') (i' := y) (j' := y') h1 (by rw [hD.sq]; exact h2) h3 (by rw [hE.sq]; exact h4)
      rwa [hE.sq] at this
    constructor
    · intro b hb
      rw [pairwise_map]
      refine hE.off.imp_of_mem ?_
      intro c c' hc hc' h z hz w hw
      obtain ⟨x, hx, y, hy, rfl⟩ := mem_prodPos.1 hz
      obtain ⟨x', hx', y', hy', rfl⟩ := mem_prodPos.1 hw
      rw [ent _ _ _ _ (hD.lt hb hx) (hD.lt hb hx') (hE.lt hc hy) (hE.lt hc' hy'),
        ent _ _ _ _ (hD.lt hb hx') (hD.lt hb hx) (hE.lt hc' hy') (hE.lt hc hy), (h y hy y' hy').1, (h y hy y' hy').2]
      simp
    · refine hD.off.imp_of_mem ?_
      intro b b' hb hb' h bc hbc bc' hbc' z hz w hw
      obtain ⟨c, hc, rfl⟩ := mem_map.1 hbc
      obtain ⟨c', hc', rfl⟩ := mem_map.1 hbc'
      obtain ⟨x, hx, y, hy, rfl⟩ := mem_prodPos.1 hz
      obtain ⟨x', hx', y', hy', rfl⟩ := mem_prodPos.1 hw
      rw [ent _ _ _ _ (hD.lt hb hx) (hD.lt hb' hx') (hE.lt hc hy) (hE.lt hc' hy'),
        ent _ _ _ _ (hD.lt hb' hx') (hD.lt hb hx) (hE.lt hc' hy') (hE.lt hc hy), (h x hx x' hx').1, (h x hx x' hx').2]
      simp

theorem slicePos_cons (n : ℕ) (s : List ℕ) (r : List ℕ) (rs : List (List ℕ)) :
    slicePos (n :: s) (r :: rs) = prodPos s.prod r (slicePos s rs) := by
  simp only [slicePos, cart, prodPos, map_flatMap, map_map]
  rfl

/-- Blocks of a Kronecker product of block matrices. -/
theorem Real.kronL (DL : List (DMat R × List (DMat R × List ℕ))) (h : ∀ d ∈ DL, Real d.1 d.2) :
    Real (kronL (DL.map (·.1))) ((cart (DL.map (·.2))).map fun b =>
      (DMat.kronL (b.map (·.1)), slicePos (DL.map fun d => d.1.rows) (b.map (·.2)))) := by
  induction DL with
  | nil =>
    simp only [map_nil, DMat.kronL, cart, map_cons, slicePos, ravel]
    refine ⟨by simp, rfl, ?_, by simp⟩
    intro b hb
    simp only [mem_singleton] at hb
    subst hb
    apply ext (by simp) (by simp)
    intro i j hi hj
    rw [pick_e hi hj]
    simp at hi hj
    simp [hi, hj]
  | cons d DL ih =>
    have := (h d (by simp)).kron (ih fun d' hd' => h d' (by simp [hd']))
    simp only [map_cons, DMat.kronL, cart, map_flatMap, map_map] at this ⊢
    convert this using 2
    funext b
    apply map_congr_left
    intro c _
    simp [DMat.kronL, slicePos_cons, kronL_rows, Function.comp_def]

end DMat

/-! ### `rep_permutation` -/

theorem length_addAt (a pos vals : List ℕ) : (addAt a pos vals).length = a.length := by
  unfold addAt
  generalize pos.zip vals = l
  induction l generalizing a with
  | nil => rfl
  | cons x l ih => rw [foldl_cons, ih]; simp

theorem addAt_append {a p q v w : List ℕ} (h : p.length = v.length) :
    addAt a (p ++ q) (v ++ w) = addAt (addAt a p v) q w := by
  unfold addAt; rw [zip_append h, foldl_append]

theorem addAt_cons (a : List ℕ) (x v : ℕ) (p w : List ℕ) :
    addAt a (x :: p) (v :: w) = addAt (a.modify x (· + v)) p w := rfl

theorem getD_addAt_of_not_mem {a pos vals : List ℕ} {x : ℕ} (h : x ∉ pos) :
    (addAt a pos vals).getD x 0 = a.getD x 0 := by
  induction pos generalizing a vals with
  | nil => rfl
  | cons p pos ih =>
    cases vals with
    | nil => rfl
    | cons v vals =>
      simp only [mem_cons, not_or] at h
      rw [addAt_cons, ih h.2]
      simp only [getD_eq_getElem?_getD]
      rw [getElem?_modify_ne]
      exact Ne.symm h.1

theorem getD_addAt {a pos vals : List ℕ} (hn : pos.Nodup) (hl : ∀ x ∈ pos, x < a.length)
    (hv : pos.length = vals.length) {k : ℕ} (hk : k < pos.length) :
    (addAt a pos vals).getD (pos.getD k 0) 0 = a.getD (pos.getD k 0) 0 + vals.getD k 0 := by
  induction pos generalizing a vals k with
  | nil => simp at hk
  | cons p pos ih =>
    cases vals with
    | nil => simp at hv
    | cons v vals =>
      simp only [nodup_cons] at hn
      rw [addAt_cons]
      cases k with
      | zero =>
        simp only [getD_cons_zero]
        rw [getD_addAt_of_not_mem hn.1]
        have := hl p (by simp)
        rw [getD_eq_getElem' (by simpa), getD_eq_getElem' this]
        simp
      | succ k =>
        simp only [getD_cons_succ]
        have hk' : k < pos.length := by simpa using hk
        have hne : p ≠ pos.getD k 0 := by
          intro e; exact hn.1 (e ▸ getD_mem_of_lt hk')
        rw [ih hn.2 (by intro x hx; simpa using hl x (by simp [hx])) (by simpa using hv) hk']
        congr 1
        simp only [getD_eq_getElem?_getD]
        rw [getElem?_modify_ne]
        rw [← getD_eq_getElem?_getD]; exact hne

/-- all positions, block after block -/
def blockPos (shape : List ℕ) (cums : List (List ℕ)) (ixs : List (List ℕ)) : List ℕ :=
  ixs.flatMap fun ix => slicePos shape (zipWith sliceRange cums ix)

theorem length_cart {α} (ls : List (List α)) : (cart ls).length = (ls.map length).prod := by
  induction ls with
  | nil => rfl
  | cons l ls ih => simp [cart, length_flatMap, ih]

theorem length_slicePos (shape : List ℕ) (rs : List (List ℕ)) : (slicePos shape rs).length = (rs.map length).prod := by
  simp [slicePos, length_cart]

theorem repPermLoop_eq (shape : List ℕ) (cums ixs : List (List ℕ)) (a : List ℕ) (i : ℕ) :
    repPermLoop shape cums ixs (a, i) =
      addAt a (blockPos shape cums ixs) ((range (blockPos shape cums ixs).length).map (i + ·)) := by
  induction ixs generalizing a i with
  | nil => simp [repPermLoop, blockPos, addAt]
  | cons ix ixs ih =>
    have e : blockPos shape cums (ix :: ixs) =
        slicePos shape (zipWith sliceRange cums ix) ++ blockPos shape cums ixs := by simp [blockPos]
    simp only [repPermLoop]
    rw [ih, e, length_append, range_add, map_append, map_map, addAt_append, length_slicePos]
    · congr 1
      apply map_congr_left; intro x _; simp [add_assoc]
    · simp

/-- `rep_permutation` lists the flat positions block by block. -/
theorem repPermutation_eq (sizes : List (List ℕ))
    (h : blockPos ((sizes.map cumsum0).map fun c => c.getLastD 0) (sizes.map cumsum0)
      (cart (sizes.map fun s => range s.length)) ~ range ((sizes.map cumsum0).map fun c => c.getLastD 0).prod) :
    repPermutation sizes = blockPos ((sizes.map cumsum0).map fun c => c.getLastD 0) (sizes.map cumsum0)
      (cart (sizes.map fun s => range s.length)) := by
  unfold repPermutation
  simp only
  set shape := (sizes.map cumsum0).map fun c => c.getLastD 0
  set L := blockPos shape (sizes.map cumsum0) (cart (sizes.map fun s => range s.length))
  rw [repPermLoop_eq]
  have hl := length_of_perm_range h
  have hg : gather (addAt (replicate shape.prod 0) L ((range L.length).map (0 + ·))) L = range shape.prod := by
    apply list_ext_getD 0 (by rw [length_gather, hl]; simp)
    intro k hk
    rw [length_gather] at hk
    rw [getD_gather hk, getD_addAt (nodup_of_perm_range h) (by intro x hx; simpa using lt_of_perm_range h hx) (by simp) hk]
    rw [getD_range (by omega), getD_eq_getElem' (l := replicate _ _) (by rw [length_replicate]; exact lt_of_perm_range h (getD_mem_of_lt hk)),
      getD_eq_getElem' (l := map _ _) (by simpa)]
    simp
  refine argsort_eq ?_ (fun x hx => lt_of_perm_range h hx) hg
  -- the array is a permutation
  have hlen : (addAt (replicate shape.prod 0) L ((range L.length).map (0 + ·))).length = shape.prod := by
    rw [length_addAt]; simp
  refine (perm_iff_count.2 fun x => ?_)
  have h2 := (h.map fun i => (addAt (replicate shape.prod 0) L ((range L.length).map (0 + ·))).getD i 0).count_eq x
  have e1 : gather (addAt (replicate shape.prod 0) L ((range L.length).map (0 + ·))) (range shape.prod) =
      addAt (replicate shape.prod 0) L ((range L.length).map (0 + ·)) := by
    have := gather_range (p := addAt (replicate shape.prod 0) L ((range L.length).map (0 + ·)))
    rwa [hlen] at this
  unfold gather at e1 hg
  rw [hg, e1] at h2
  exact h2.symm

theorem cumsum0_getD (s : List ℕ) {i : ℕ} (h : i ≤ s.length) : (cumsum0 s).getD i 0 = (s.take i).sum := by
  unfold cumsum0
  have : ∀ (a : ℕ) (s : List ℕ) (i : ℕ), i ≤ s.length → (s.scanl (· + ·) a).getD i 0 = a + (s.take i).sum := by
    intro a s
    induction s generalizing a with
    | nil => intro i h; simp at h; subst h; simp
    | cons x s ih =>
      intro i h
      rw [scanl_cons]
      cases i with
      | zero => simp
      | succ i => rw [getD_cons_succ, ih _ _ (by simpa using h)]; simp [add_assoc]
  rw [this 0 s i h, zero_add]

theorem cumsum0_getLastD (s : List ℕ) : (cumsum0 s).getLastD 0 = s.sum := by
  have hl : (cumsum0 s).length = s.length + 1 := by simp [cumsum0]
  have := cumsum0_getD s (le_refl s.length)
  rw [take_length] at this
  rw [← this]
  have hne : cumsum0 s ≠ [] := by intro h; rw [h] at hl; simp at hl
  rw [getLastD_eq_getLast?, getLast?_eq_getElem?, getD_eq_getElem?_getD, hl]
  rfl

theorem sliceRange_cumsum0 (s : List ℕ) {i : ℕ} (h : i < s.length) :
    sliceRange (cumsum0 s) i = (range s[i]).map ((s.take i).sum + ·) := by
  unfold sliceRange
  rw [cumsum0_getD s (by omega : i + 1 ≤ s.length), cumsum0_getD s (by omega : i ≤ s.length)]
  rw [take_succ_eq_append_getElem h, sum_append, sum_singleton, Nat.add_sub_cancel_left]

theorem cart_map {α β} (f : α → β) (ls : List (List α)) : cart (ls.map (map f)) = (cart ls).map (map f) := by
  induction ls with
  | nil => rfl
  | cons l ls ih => simp only [map_cons, cart, ih, flatMap_map, map_flatMap, map_map]; rfl

/-- entries are chosen from the corresponding lists -/
theorem cart_zipWith {α β γ} (f : γ → α → β) (cs : List γ) (ls : List (List α)) (h : cs.length = ls.length) :
    cart (zipWith (fun c l => l.map (f c)) cs ls) = (cart ls).map (zipWith f cs) := by
  induction ls generalizing cs with
  | nil => cases cs <;> simp at h; rfl
  | cons l ls ih =>
    cases cs with
    | nil => simp at h
    | cons c cs =>
      simp only [zipWith_cons_cons, cart, ih cs (by simpa using h), flatMap_map, map_flatMap, map_map]
      rfl

end Verif
