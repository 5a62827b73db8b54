import Verif.Model.PySort
import Verif.Lemmas.Order

/-! `pySort` fulfils the contract of `sorted`. -/
namespace Verif
open List
variable {α : Type} {lt : α → α → Bool}

theorem descRun_append (a : α) (l : List α) : (descRun lt a l).1 ++ (descRun lt a l).2 = l := by
  induction l generalizing a with
  | nil => rfl
  | cons b t ih => unfold descRun; split <;> simp [ih]

theorem ascRun_append (a : α) (l : List α) : (ascRun lt a l).1 ++ (ascRun lt a l).2 = l := by
  induction l generalizing a with
  | nil => rfl
  | cons b t ih => unfold ascRun; split <;> simp [ih]

theorem countRun_perm (l : List α) : (countRun lt l).1 ++ (countRun lt l).2 ~ l := by
  match l with
  | [] => exact .refl _
  | [a] => exact .refl _
  | a :: b :: t =>
    rw [countRun]
    split
    · simp only
      refine ((reverse_perm _).append_right _).trans ?_
      rw [cons_append, descRun_append]
    · simp only
      rw [cons_append, ascRun_append]

theorem binInsert_perm (p : List α) (x : α) : binInsert lt p x ~ x :: p := by
  unfold binInsert
  simp only
  refine perm_middle.trans ?_
  rw [take_append_drop]

theorem foldl_binInsert_perm (l p : List α) : l.foldl (binInsert lt) p ~ p ++ l := by
  induction l generalizing p with
  | nil => simp
  | cons a t ih =>
    simp only [foldl_cons]
    refine (ih _).trans ?_
    refine ((binInsert_perm p a).append_right t).trans ?_
    rw [cons_append]; exact perm_middle.symm

theorem pySort_perm (l : List α) : pySort lt l ~ l :=
  (foldl_binInsert_perm _ _).trans (countRun_perm l)

theorem descRun_sorted {a : α} {l : List α} (h : StrictTotalOn lt (a :: l)) :
    (a :: (descRun lt a l).1).Pairwise fun x y => lt y x = true := by
  induction l generalizing a with
  | nil => simp [descRun]
  | cons b t ih =>
    unfold descRun
    split
    · rename_i hba
      simp only
      have h1 := ih (a := b) (h.mono fun x hx => by simp only [mem_cons] at hx ⊢; tauto)
      rw [pairwise_cons]
      refine ⟨?_, h1⟩
      intro y hy
      rcases mem_cons.1 hy with rfl | hy'
      · exact hba
      · have hyt : y ∈ t := by
          have := descRun_append (lt := lt) b t
          rw [← this]; exact mem_append_left _ hy'
        exact h.trans y (by simp [hyt]) b (by simp) a (by simp) ((pairwise_cons.1 h1).1 y hy') hba
    · simp

theorem ascRun_sorted {a : α} {l : List α} (h : StrictTotalOn lt (a :: l)) (hn : (a :: l).Nodup) :
    (a :: (ascRun lt a l).1).Pairwise fun x y => lt x y = true := by
  induction l generalizing a with
  | nil => simp [ascRun]
  | cons b t ih =>
    unfold ascRun
    split
    · simp
    · rename_i hba
      simp only
      have hab : lt a b = true := by
        rcases h.total a (by simp) b (by simp) (by rintro rfl; simp at hn) with h1 | h1
        · exact h1
        · exact absurd h1 hba
      have h1 := ih (a := b) (h.mono fun x hx => by simp only [mem_cons] at hx ⊢; tauto) (nodup_cons.1 hn).2
      rw [pairwise_cons]
      refine ⟨?_, h1⟩
      intro y hy
      rcases mem_cons.1 hy with rfl | hy'
      · exact hab
      · have hyt : y ∈ t := by
          have := ascRun_append (lt := lt) b t
          rw [← this]; exact mem_append_left _ hy'
        exact h.trans a (by simp) b (by simp) y (by simp [hyt]) hab ((pairwise_cons.1 h1).1 y hy')

theorem countRun_sorted {l : List α} (h : StrictTotalOn lt l) (hn : l.Nodup) :
    (countRun lt l).1.Pairwise fun x y => lt x y = true := by
  match l, h, hn with
  | [], _, _ => exact Pairwise.nil
  | [a], _, _ => exact pairwise_singleton _ _
  | a :: b :: t, h, hn =>
    rw [countRun]
    split
    · simp only
      rw [pairwise_reverse]
      exact descRun_sorted h
    · exact ascRun_sorted h hn

theorem binPos_spec {x : α} {p : List α} (h : StrictTotalOn lt (x :: p)) (hx : x ∉ p)
    (hp : p.Pairwise fun a b => lt a b = true) : ∀ (fuel l r : ℕ), l ≤ r → r ≤ p.length → r - l < fuel →
    (∀ i (hi : i < p.length), i < l → lt p[i] x = true) → (∀ i (hi : i < p.length), r ≤ i → lt x p[i] = true) →
    ∃ k, k = binPos lt x p fuel l r ∧ k ≤ p.length ∧ (∀ i (hi : i < p.length), i < k → lt p[i] x = true) ∧
      ∀ i (hi : i < p.length), k ≤ i → lt x p[i] = true := by
  intro fuel
  induction fuel with
  | zero => intro l r _ _ h'; omega
  | succ fuel ih =>
    intro l r hlr hr hf h1 h2
    unfold binPos
    by_cases hl : l < r
    · rw [if_pos hl]
      have hm : (l + r) / 2 < p.length := by omega
      simp only [getElem?_eq_getElem hm]
      have hpw := pairwise_iff_getElem.1 hp
      have mem : ∀ i (hi : i < p.length), p[i] ∈ x :: p := fun i hi => mem_cons_of_mem _ (getElem_mem hi)
      by_cases hc : lt x p[(l + r) / 2] = true
      · rw [if_pos hc]
        refine ih l ((l + r) / 2) (by omega) (by omega) (by omega) h1 ?_
        intro i hi hmi
        rcases Nat.eq_or_lt_of_le hmi with he | hlt
        · subst he; exact hc
        · exact h.trans x (by simp) _ (mem _ hm) _ (mem _ hi) hc (hpw _ _ hm hi hlt)
      · rw [if_neg hc]
        have hc' : lt p[(l + r) / 2] x = true := by
          rcases h.total x (by simp) _ (mem _ hm) (by rintro he; exact hx (he ▸ getElem_mem hm)) with h3 | h3
          · exact absurd h3 hc
          · exact h3
        refine ih ((l + r) / 2 + 1) r (by omega) hr (by omega) ?_ h2
        intro i hi him
        rcases Nat.eq_or_lt_of_le (Nat.lt_succ_iff.1 him) with he | hlt
        · subst he; exact hc'
        · exact h.trans _ (mem _ hi) _ (mem _ hm) x (by simp) (hpw _ _ hi hm hlt) hc'
    · rw [if_neg hl]
      exact ⟨l, rfl, by omega, h1, fun i hi hli => h2 i hi (by omega)⟩

theorem binInsert_sorted {x : α} {p : List α} (h : StrictTotalOn lt (x :: p)) (hx : x ∉ p)
    (hp : p.Pairwise fun a b => lt a b = true) : (binInsert lt p x).Pairwise fun a b => lt a b = true := by
  obtain ⟨k, hk, hkl, h1, h2⟩ := binPos_spec h hx hp (p.length + 1) 0 p.length (by omega) le_rfl (by omega) (by intro i _ h; omega)
    (by intro i hi h; omega)
  unfold binInsert
  simp only
  rw [← hk, pairwise_append, pairwise_cons]
  have a1 : ∀ y ∈ p.take k, lt y x = true := by
    intro y hy
    obtain ⟨i, hi, rfl⟩ := getElem_of_mem hy
    rw [length_take] at hi
    rw [getElem_take]; exact h1 i (by omega) (by omega)
  have a2 : ∀ y ∈ p.drop k, lt x y = true := by
    intro y hy
    obtain ⟨i, hi, rfl⟩ := getElem_of_mem hy
    rw [length_drop] at hi
    rw [getElem_drop]; exact h2 _ (by omega) (by omega)
  refine ⟨hp.sublist (take_sublist _ _), ⟨a2, hp.sublist (drop_sublist _ _)⟩, ?_⟩
  intro a ha b hb
  rcases mem_cons.1 hb with rfl | hb
  · exact a1 a ha
  · exact h.trans a (mem_cons_of_mem _ (mem_of_mem_take ha)) x (by simp) b (mem_cons_of_mem _ (mem_of_mem_drop hb))
      (a1 a ha) (a2 b hb)

theorem foldl_binInsert_sorted (l : List α) : ∀ p : List α, StrictTotalOn lt (p ++ l) → (p ++ l).Nodup →
    p.Pairwise (fun a b => lt a b = true) → (l.foldl (binInsert lt) p).Pairwise fun a b => lt a b = true := by
  induction l with
  | nil => intro p _ _ h; exact h
  | cons a t ih =>
    intro p h hn hp
    simp only [foldl_cons]
    have hpm : binInsert lt p a ++ t ~ p ++ a :: t := ((binInsert_perm p a).append_right t).trans perm_middle.symm
    apply ih
    · exact h.of_perm hpm.symm
    · exact hpm.nodup_iff.2 hn
    · apply binInsert_sorted _ _ hp
      · exact h.mono fun x hx => by simp only [mem_cons, mem_append] at hx ⊢; tauto
      · intro ha
        exact (nodup_append.1 hn).2.2 a ha a (by simp) rfl

/-- The contract of `sorted`. -/
theorem pySort_sorted {l : List α} (hn : l.Nodup) (h : StrictTotalOn lt l) : (pySort lt l).Pairwise fun a b => lt a b = true := by
  have hp := countRun_perm (lt := lt) l
  exact foldl_binInsert_sorted _ _ (h.of_perm hp.symm) (hp.nodup_iff.2 hn) (countRun_sorted h hn)

end Verif
