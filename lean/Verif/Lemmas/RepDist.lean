import Verif.Lemmas.RepSum

/-! `distribute_product`: the matrix of a product of sums is the Kronecker product. -/
namespace Verif
open List

variable {W : World}

/-- A class of canonical keys of size at most `N` on which `__lt__` is a strict total order and which is closed under
products. -/
structure KeyClass (W : World) (S : Key → Prop) (N : ℕ) : Prop where
  wf : ∀ k, S k → k.WF W ∧ k.base W = k
  pos : ∀ k, S k → 0 < k.size W
  le : ∀ k, S k → k.size W ≤ N
  st : ∀ l : List Key, (∀ k ∈ l, S k) → StrictTotalOn (Key.lt W) l
  mul : ∀ a b : Key, a.WF W → b.WF W → S (a.base W) → S (b.base W) → a.size W * b.size W ≤ N →
    ∃ r, Key.mul W a b = .ok r ∧ r.WF W ∧ S (r.base W) ∧ r.size W = a.size W * b.size W ∧
      ∀ (R : Type) [CommRing R] (I : Interp R), I.Sized W →
        (r.rho I).sem = DMat.kron (a.rho I).sem (b.rho I).sem

variable {S : Key → Prop} {N : ℕ}

theorem prod_pos_of {α : Type} {l : List α} {f : α → ℕ} (h : ∀ x ∈ l, 0 < f x) : 0 < (l.map f).prod := by
  induction l with
  | nil => simp
  | cons a t ih =>
    simp only [map_cons, prod_cons]
    exact Nat.mul_pos (h a (by simp)) (ih fun x hx => h x (by simp [hx]))

/-- `reduce(lambda a,b: a*b, ...)` over keys. -/
theorem KeyClass.foldl (hS : KeyClass W S N) : ∀ (ks : List Key) (a : Key), a.WF W → S (a.base W) →
    (∀ k ∈ ks, k.WF W ∧ S (k.base W)) → a.size W * (ks.map (Key.size W)).prod ≤ N →
    ∃ r, ks.foldlM (Key.mul W) a = .ok r ∧ r.WF W ∧ S (r.base W) ∧ r.size W = a.size W * (ks.map (Key.size W)).prod ∧
      ∀ (R : Type) [CommRing R] (I : Interp R), I.Sized W →
        (r.rho I).sem = DMat.kronL ((a :: ks).map fun k => (k.rho I).sem)
  | [], a, ha, hSa, _, _ => by
    refine ⟨a, rfl, ha, hSa, by simp, ?_⟩
    intro R _ I _
    simp [DMat.kronL_singleton]
  | b :: ks, a, ha, hSa, hks, hN => by
    have hb := hks b (by simp)
    have hp : 0 < (ks.map (Key.size W)).prod := prod_pos_of fun k hk => by
      rw [← Key.size_base]; exact hS.pos _ (hks k (by simp [hk])).2
    simp only [map_cons, prod_cons] at hN
    have hab : a.size W * b.size W ≤ N := by
      refine le_trans ?_ hN
      rw [← mul_assoc]; exact Nat.le_mul_of_pos_right _ hp
    obtain ⟨c, h1, h2, h3, h4, h5⟩ := hS.mul a b ha hb.1 hSa hb.2 hab
    obtain ⟨r, r1, r2, r3, r4, r5⟩ := KeyClass.foldl hS ks c h2 h3 (fun k hk => hks k (by simp [hk]))
      (by rw [h4, mul_assoc]; exact hN)
    refine ⟨r, ?_, r2, r3, ?_, ?_⟩
    · rw [foldlM_cons, h1]; exact r1
    · rw [r4, h4]; simp [mul_assoc]
    · intro R _ I hI
      rw [r5 R I hI]
      simp only [map_cons, DMat.kronL, h5 R I hI, DMat.kron_assoc]

theorem Rep.keys_base (r : Rep) : (r.base W).keys W = r.keys W := by
  match r with
  | .key k => simp [Rep.base, Rep.keys, Key.base_base]
  | .sum s => rfl
  | .dsum l => rfl
  | .dprod l => rfl

theorem Rep.size_base (r : Rep) : (r.base W).size W = r.size W := by
  match r with
  | .key k => simp [Rep.base, Rep.size, Key.size_base]
  | .sum s => rfl
  | .dsum l => rfl
  | .dprod l => rfl

theorem Rep.cnt_base (r : Rep) : (r.base W).cnt W = r.cnt W := by
  match r with
  | .key k => simp [Rep.base, Rep.cnt, Key.base_base]
  | .sum s => rfl
  | .dsum l => rfl
  | .dprod l => rfl

theorem Rep.permOf_base {r : Rep} (h : r.WF W) (hp : ∀ k, r = .key k → (k.base W).permOf W = range (k.size W)) :
    (r.base W).permOf W = range (r.size W) := by
  match r, h with
  | .key k, h => exact hp k rfl
  | .sum s, h => rfl

theorem Key.permOf_base {k : Key} : (k.base W).permOf W = range (k.size W) := by
  match k with
  | .scalar => rfl
  | .fac (.atom a) => rfl
  | .fac (.prod p) => rfl
  | .dprod d => rfl

/-- The canonical form has the block-diagonal matrix. -/
theorem Rep.base_mat {R : Type} [CommRing R] {I : Interp R} (hI : I.Sized W) {r : Rep} (h : r.WF W) :
    (r.base W).mat I = DMat.bdiag ((r.cnt W).expand.map fun k => (k.rho I).sem) := by
  have h1 := Rep.mat_pick hI h.base
  rw [Rep.permOf_base h fun k _ => Key.permOf_base, Rep.cnt_base] at h1
  rw [← h1]
  have h2 := Rep.mat_sq hI h.base
  rw [Rep.size_base] at h2
  conv_lhs => rw [← DMat.pick_range ((r.base W).mat I), h2.1, h2.2]

/-- `canonicalize()`: reordering the matrix gives the matrix of the canonical form. -/
theorem Rep.mat_pick_base {R : Type} [CommRing R] {I : Interp R} (hI : I.Sized W) {r : Rep} (h : r.WF W) :
    (r.mat I).pick (r.permOf W) (r.permOf W) = (r.base W).mat I := by
  rw [Rep.base_mat hI h, Rep.mat_pick hI h]

theorem flatMap_replicate_keys {l : List Key} {n : ℕ} {k : Key} (h : k ∈ (replicate n l).flatMap id) : k ∈ l := by
  obtain ⟨x, hx, hk⟩ := mem_flatMap.1 h
  rw [(mem_replicate.1 hx).2] at hk; exact hk

/-- `n*rep` for `n ≥ 1`. -/
theorem Rep.mulInt_spec {r : Rep} (h : r.WF W) (hst : StrictTotalOn (Key.lt W) (r.keys W)) {n : ℕ} (hn : 0 < n) :
    ∃ s, Rep.mulInt W r n = .ok (.rep s) ∧ s.WF W ∧ s.size W = n * r.size W ∧ (∀ k, k ∈ s.keys W ↔ k ∈ r.keys W) ∧
      ∀ (R : Type) [CommRing R] (I : Interp R), I.Sized W → s.mat I = DMat.bdiag (replicate n (r.mat I)) := by
  unfold Rep.mulInt
  by_cases h1 : n = 1
  · subst h1
    refine ⟨r, by simp, h, by simp, by simp, ?_⟩
    intro R _ I _; simp [DMat.bdiag_singleton]
  · have hc : r.concrete = true := by
      match r, h with
      | .key .scalar, _ => rfl
      | .key (.fac (.atom a)), h => exact h
      | .key (.fac (.prod p)), _ => rfl
      | .key (.dprod d), _ => rfl
      | .sum s, _ => rfl
    have e : (n : ℤ) ≠ 1 := by exact_mod_cast h1
    have e0 : (n : ℤ) ≠ 0 := by exact_mod_cast hn.ne'
    rw [if_neg e, if_neg e0, if_pos hc, Int.toNat_natCast]
    obtain ⟨s, s1, s2, s3, s4, -, s6⟩ := mkSum_spec_none (W := W) (ops := replicate n r) (by simp [hn.ne'])
      (fun x hx => by rw [(mem_replicate.1 hx).2]; exact h)
      (hst.mono fun k hk => by
        obtain ⟨x, hx, hk⟩ := mem_flatMap.1 hk
        rw [(mem_replicate.1 hx).2] at hk; exact hk)
    refine ⟨.sum s, by rw [s1]; rfl, s2, ?_, ?_, ?_⟩
    · show s.size W = _
      rw [s3]; simp
    · intro k
      show k ∈ s.c.keys ↔ _
      rw [s4]
      constructor
      · rintro ⟨x, hx, hk⟩; rw [(mem_replicate.1 hx).2] at hk; exact hk
      · intro hk; exact ⟨r, by simp [hn.ne'], hk⟩
    · intro R _ I hI
      show (s.rho I).sem = _
      rw [s6 R I hI]; simp

/-- One term of the expanded product. -/
theorem distTerm_spec (hS : KeyClass W S N) {t : List (Key × ℕ)} (hne : t ≠ []) (ht : ∀ kc ∈ t, S kc.1 ∧ kc.2 ≠ 0)
    (hN : (t.map fun kc => kc.1.size W).prod ≤ N) :
    ∃ T p, distTerm W t = .ok (T, p) ∧ T.WF W ∧ (∀ k ∈ T.keys W, S k) ∧
      T.size W = (t.map fun kc => kc.2 * kc.1.size W).prod ∧ p ~ range (T.size W) ∧
      ∀ (R : Type) [CommRing R] (I : Interp R), I.Sized W →
        (DMat.bdiag (replicate (t.map (·.2)).prod (DMat.kronL (t.map fun kc => (kc.1.rho I).sem)))).pick p p = T.mat I := by
  obtain ⟨a, t', rfl⟩ := exists_cons_of_ne_nil hne
  have hk : ∀ kc ∈ a :: t', kc.1.WF W ∧ S (kc.1.base W) := by
    intro kc hkc
    have := (ht kc hkc).1
    have hw := hS.wf _ this
    exact ⟨hw.1, by rw [hw.2]; exact this⟩
  simp only [map_cons, prod_cons] at hN
  obtain ⟨r, r1, r2, r3, r4, r5⟩ := hS.foldl (t'.map (·.1)) a.1 (hk a (by simp)).1 (hk a (by simp)).2
    (by intro k hk'; obtain ⟨kc, hkc, rfl⟩ := mem_map.1 hk'; exact hk kc (by simp [hkc]))
    (by rw [map_map]; exact hN)
  have hc : 0 < ((a :: t').map (·.2)).prod := prod_pos_of fun kc hkc => Nat.pos_of_ne_zero (ht kc hkc).2
  obtain ⟨s, s1, s2, s3, s4, s5⟩ := Rep.mulInt_spec (W := W) (r := .key r) r2
    (by simpa [Rep.keys] using hS.st [r.base W] (by simpa using r3)) hc
  refine ⟨s.base W, s.permOf W, ?_, s2.base, ?_, ?_, ?_, ?_⟩
  · unfold distTerm
    simp only [map_cons, Key.mulList]
    rw [r1]
    show (Rep.mulInt W (.key r) _ >>= _) = _
    rw [map_cons] at s1
    rw [s1]
    exact Rep.canon_wf s2
  · intro k hk'
    rw [Rep.keys_base, s4] at hk'
    simp only [Rep.keys, mem_singleton] at hk'
    rw [hk']; exact r3
  · rw [Rep.size_base, s3]
    show _ * r.size W = _
    rw [r4, map_map]
    have : ∀ l : List (Key × ℕ), (l.map fun kc => kc.2 * kc.1.size W).prod = (l.map (·.2)).prod * (l.map fun kc => kc.1.size W).prod := by
      intro l; induction l with
      | nil => simp
      | cons x l ih => simp only [map_cons, prod_cons, ih]; ring
    rw [this]; simp [Function.comp_def]
  · rw [Rep.size_base]; exact Rep.permOf_perm s2
  · intro R _ I hI
    rw [← Rep.mat_pick_base hI s2, s5 R I hI]
    show _ = (DMat.bdiag (replicate _ ((r.rho I).sem))).pick _ _
    rw [r5 R I hI]
    simp only [map_cons, map_map, Function.comp_def]

theorem mem_cart {α : Type} : ∀ {ls : List (List α)} {t : List α}, t ∈ cart ls → t.length = ls.length ∧
    Forall₂ (fun a l => a ∈ l) t ls
  | [], t, h => by simp [cart] at h; subst h; simp
  | l :: ls, t, h => by
    simp only [cart, mem_flatMap, mem_map] at h
    obtain ⟨a, ha, t', ht', rfl⟩ := h
    obtain ⟨h1, h2⟩ := mem_cart ht'
    exact ⟨by simp [h1], .cons ha h2⟩

theorem forall₂_prod_le {α β : Type} {f : α → ℕ} {g : β → ℕ} {t : List α} {ls : List β} {r : α → β → Prop}
    (h : Forall₂ r t ls) (hr : ∀ a b, r a b → f a ≤ g b) : (t.map f).prod ≤ (ls.map g).prod := by
  induction h with
  | nil => simp
  | cons h1 _ ih => simp only [map_cons, prod_cons]; exact Nat.mul_le_mul (hr _ _ h1) ih

theorem mapM_exists {α β : Type} {f : α → Py β} {l : List α} {P : α → β → Prop} (h : ∀ x ∈ l, ∃ y, f x = .ok y ∧ P x y) :
    ∃ g : List (α × β), l.mapM f = .ok (g.map (·.2)) ∧ g.map (·.1) = l ∧ ∀ xy ∈ g, P xy.1 xy.2 := by
  induction l with
  | nil => exact ⟨[], rfl, rfl, by simp⟩
  | cons a t ih =>
    obtain ⟨y, hy, hP⟩ := h a (by simp)
    obtain ⟨g, g1, g2, g3⟩ := ih fun x hx => h x (by simp [hx])
    refine ⟨(a, y) :: g, ?_, by simp [g2], ?_⟩
    · rw [mapM_cons, hy, g1]; rfl
    · intro xy hxy
      rcases mem_cons.1 hxy with rfl | hxy
      · exact hP
      · exact g3 xy hxy

theorem Rep.asSum_base {r : Rep} (h : r.WF W) (hst : StrictTotalOn (Key.lt W) (r.keys W)) :
    Rep.asSum W (r.base W) = .ok ⟨r.cnt W, range (r.size W)⟩ := by
  match r, h with
  | .sum s, h => rfl
  | .key k, h =>
    simp only [Rep.base, Rep.asSum]
    rw [if_pos (Key.hashable_base k)]
    congr 1
    have hw : SRep.WF W ⟨[(k.base W, 1)], range (k.size W)⟩ := by
      refine ⟨SortedCounter.single (hst.irrefl _ (by simp [Rep.keys])), ?_, ?_⟩
      · intro l hl
        simp only [Counter.keys, map_cons, map_nil, mem_singleton] at hl
        subst hl; exact ⟨Key.WF.base h, Key.base_base k⟩
      · simp only [SRep.size, Counter.sumSize, map_cons, map_nil, sum_cons, sum_nil]
        rw [Key.size_base]; simp
    have := mkSumC_wf hw
    simp only at this
    rw [this]
    simp [Rep.cnt, SRep.size, Counter.sumSize, Key.size_base, Rep.size]

theorem bdiag_expand_items {R : Type} [CommRing R] (c : Counter Key) (mat : Key → DMat R) :
    DMat.bdiag (c.expand.map mat) = DMat.bdiag ((c.map fun kc => (mat kc.1, kc.2)).map fun it => DMat.bdiag (replicate it.2 it.1)) := by
  rw [Counter.expand, map_flatMap, DMat.bdiag_flatMap]
  congr 1
  rw [map_map]
  apply map_congr_left
  intro kc _
  simp

/-- `distribute_product`. -/
theorem distribute_spec (hS : KeyClass W S N) {ops : List Rep} (hne : ops ≠ []) (h : ∀ r ∈ ops, r.WF W)
    (hk : ∀ r ∈ ops, ∀ k ∈ r.keys W, S k) (hN : (ops.map (Rep.size W)).prod ≤ N) :
    ∃ s, distribute W ops = .ok s ∧ s.WF W ∧ (∀ k ∈ s.c.keys, S k) ∧ s.size W = (ops.map (Rep.size W)).prod ∧
      ∀ (R : Type) [CommRing R] (I : Interp R), I.Sized W → (s.rho I).sem = DMat.kronL (ops.map (Rep.mat I)) := by
  have hst : ∀ r ∈ ops, StrictTotalOn (Key.lt W) (r.keys W) := fun r hr => hS.st _ (hk r hr)
  -- the terms
  have hterm : ∀ t ∈ cart (ops.map (Rep.cnt W)), ∃ Tp, distTerm W t = .ok Tp ∧ (Tp.1.WF W ∧ (∀ k ∈ Tp.1.keys W, S k) ∧
      Tp.1.size W = (t.map fun kc => kc.2 * kc.1.size W).prod ∧ Tp.2 ~ range (Tp.1.size W) ∧
      ∀ (R : Type) [CommRing R] (I : Interp R), I.Sized W →
        (DMat.bdiag (replicate (t.map (·.2)).prod (DMat.kronL (t.map fun kc => (kc.1.rho I).sem)))).pick Tp.2 Tp.2 = Tp.1.mat I) := by
    intro t ht
    obtain ⟨h1, h2⟩ := mem_cart ht
    have hmem : ∀ kc ∈ t, ∃ r ∈ ops, kc ∈ r.cnt W := by
      intro kc hkc
      have : ∀ {t : List (Key × ℕ)} {ls : List Rep}, Forall₂ (fun a l => a ∈ l) t (ls.map (Rep.cnt W)) → kc ∈ t → ∃ r ∈ ls, kc ∈ r.cnt W := by
        intro t ls
        induction ls generalizing t with
        | nil => intro hf hm; cases hf; simp at hm
        | cons x ls ih =>
          intro hf hm
          rw [map_cons] at hf
          cases hf with
          | cons ha hb =>
            rcases mem_cons.1 hm with rfl | hm
            · exact ⟨x, by simp, ha⟩
            · obtain ⟨r, hr, hh⟩ := ih hb hm
              exact ⟨r, by simp [hr], hh⟩
      exact this h2 hkc
    obtain ⟨T, p, e1, e2⟩ := distTerm_spec hS (t := t) (by
        rintro rfl; simp at h1; exact hne (length_eq_zero_iff.1 h1.symm))
      (by
        intro kc hkc
        obtain ⟨r, hr, hrc⟩ := hmem kc hkc
        refine ⟨hk r hr kc.1 ?_, Rep.cnt_pos (h r hr) kc hrc⟩
        rw [← Rep.cnt_keys]; exact mem_map_of_mem (f := Prod.fst) hrc)
      (by
        refine le_trans ?_ hN
        have h3 : (ops.map (Rep.size W)).prod = ((ops.map (Rep.cnt W)).map fun c => c.sumSize (Key.size W)).prod := by
          rw [map_map]; congr 1
          exact map_congr_left fun r hr => (Rep.cnt_size (h r hr)).symm
        rw [h3]
        have h2' : Forall₂ (fun (a : Key × ℕ) (l : Counter Key) => a ∈ l ∧ a.2 ≠ 0) t (ops.map (Rep.cnt W)) := by
          have : ∀ {t : List (Key × ℕ)} {ls : List Rep}, (∀ r ∈ ls, r.WF W) → Forall₂ (fun a l => a ∈ l) t (ls.map (Rep.cnt W)) →
              Forall₂ (fun (a : Key × ℕ) (l : Counter Key) => a ∈ l ∧ a.2 ≠ 0) t (ls.map (Rep.cnt W)) := by
            intro t ls
            induction ls generalizing t with
            | nil => intro _ hf; cases hf; exact .nil
            | cons x ls ih =>
              intro hw hf
              rw [map_cons] at hf ⊢
              cases hf with
              | cons ha hb =>
                exact .cons ⟨ha, Rep.cnt_pos (hw x (by simp)) _ ha⟩ (ih (fun r hr => hw r (by simp [hr])) hb)
          exact this h h2
        refine forall₂_prod_le h2' fun a c hac => ?_
        have hle : a.2 * a.1.size W ≤ c.sumSize (Key.size W) := by
          rw [mul_comm]
          apply List.le_sum_of_mem
          exact mem_map_of_mem (f := fun kc : Key × ℕ => kc.1.size W * kc.2) hac.1
        exact le_trans (Nat.le_mul_of_pos_left _ (Nat.pos_of_ne_zero hac.2)) hle)
    exact ⟨(T, p), e1, e2⟩
  obtain ⟨g, g1, g2, g3⟩ := mapM_exists hterm
  obtain ⟨total, htotal⟩ : ∃ total, total = distPerm (ops.map (Rep.permOf W))
      (ops.map fun r => (r.cnt W).map fun kc => (kc.2, kc.1.size W)) (g.map fun x => x.2.2) := ⟨_, rfl⟩
  have hdist : distribute W ops = mkSum W (g.map fun x => x.2.1) (some total) := by
    unfold distribute
    rw [mapM_ok fun f hf => Rep.canon_wf (h f hf)]
    show ((ops.map fun f : Rep => (f.base W, f.permOf W)).mapM (fun c : Rep × List ℕ => Rep.asSum W c.1) >>= _) = _
    rw [mapM_map]
    have : ops.mapM ((fun c : Rep × List ℕ => Rep.asSum W c.1) ∘ fun f : Rep => (f.base W, f.permOf W)) =
        .ok (ops.map fun r => (⟨r.cnt W, range (r.size W)⟩ : SRep)) :=
      mapM_ok fun f hf => Rep.asSum_base (h f hf) (hst f hf)
    rw [this]
    show (mapM (distTerm W) (cart ((ops.map fun r => (⟨r.cnt W, range (r.size W)⟩ : SRep)).map SRep.c)) >>= _) = _
    have e : (ops.map fun r => (⟨r.cnt W, range (r.size W)⟩ : SRep)).map SRep.c = ops.map (Rep.cnt W) := by
      rw [map_map]; rfl
    rw [e, g1]
    show mkSum W _ (some (distPerm _ _ _)) = _
    rw [htotal]
    simp only [map_map, Function.comp_def]
  -- the matrices
  have gen : ∀ (R : Type) [CommRing R] (I : Interp R), I.Sized W →
      total ~ range (ops.map (Rep.size W)).prod ∧ (DMat.kronL (ops.map (Rep.mat I))).IsSq (ops.map (Rep.size W)).prod ∧
      (DMat.kronL (ops.map (Rep.mat I))).pick total total = DMat.bdiag ((g.map fun x => x.2.1).map (Rep.mat I)) := by
    intro R _ I hI
    have hsq := kronL_isSq ops (Rep.mat I) (Rep.size W) fun f hf => Rep.mat_sq hI (h f hf)
    have hrow : ∀ k, S k → ((k.rho I).sem).IsSq (k.size W) := fun k hk => Key.rho_sq hI (hS.wf k hk).1
    have hit : ∀ r ∈ ops, ∀ kc ∈ r.cnt W, S kc.1 := by
      intro r hr kc hkc
      apply hk r hr
      rw [← Rep.cnt_keys]; exact mem_map_of_mem (f := Prod.fst) hkc
    have := distPerm_mat (R := R)
      (ops.map fun r => ⟨r.mat I, r.permOf W, (r.cnt W).map fun kc => ((kc.1.rho I).sem, kc.2)⟩)
      (by
        intro a ha
        obtain ⟨r, hr, rfl⟩ := mem_map.1 ha
        have hs := Rep.mat_sq hI (h r hr)
        refine ⟨by simp only; rw [hs.1]; exact Rep.permOf_perm (h r hr), by simp only; rw [hs.1, hs.2], ?_, ?_⟩
        · simp only
          rw [Rep.mat_pick hI (h r hr), bdiag_expand_items]
        · intro it hit'
          obtain ⟨kc, hkc, rfl⟩ := mem_map.1 hit'
          have := hrow _ (hit r hr kc hkc)
          simp only; rw [this.1, this.2])
      (g.map fun x => (x.1.map fun kc => ((kc.1.rho I).sem, kc.2), x.2.2, x.2.1.mat I))
      (by
        rw [map_map, map_map]
        simp only [Function.comp_def]
        have : (ops.map fun r => (r.cnt W).map fun kc => ((kc.1.rho I).sem, kc.2)) =
            (ops.map (Rep.cnt W)).map (map fun kc => ((kc.1.rho I).sem, kc.2)) := by rw [map_map]; rfl
        rw [this, cart_map, ← g2, map_map]; rfl)
      (by
        intro t ht
        obtain ⟨x, hx, rfl⟩ := mem_map.1 ht
        obtain ⟨x1, x2, x3, x4, x5⟩ := g3 x hx
        have hxm : ∀ kc ∈ x.1, S kc.1 := by
          have hxc : x.1 ∈ cart (ops.map (Rep.cnt W)) := by rw [← g2]; exact mem_map_of_mem (f := Prod.fst) hx
          obtain ⟨-, h2⟩ := mem_cart hxc
          intro kc hkc
          have : ∀ {t : List (Key × ℕ)} {ls : List Rep}, (∀ r ∈ ls, r ∈ ops) → Forall₂ (fun a l => a ∈ l) t (ls.map (Rep.cnt W)) → kc ∈ t → S kc.1 := by
            intro t ls
            induction ls generalizing t with
            | nil => intro _ hf hm; cases hf; simp at hm
            | cons y ls ih =>
              intro hw hf hm
              rw [map_cons] at hf
              cases hf with
              | cons ha hb =>
                rcases mem_cons.1 hm with rfl | hm
                · exact hit y (hw y (by simp)) _ ha
                · exact ih (fun r hr => hw r (by simp [hr])) hb hm
          exact this (fun r hr => hr) h2 hkc
        refine ⟨?_, ?_⟩
        · simp only [map_map, Function.comp_def]
          rw [x3] at x4
          have : (x.1.map fun kc => kc.2 * kc.1.size W) = x.1.map fun kc => kc.2 * ((kc.1.rho I).sem).rows :=
            map_congr_left fun kc hkc => by rw [(hrow _ (hxm kc hkc)).1]
          rw [this] at x4
          exact x4
        · simp only [map_map, Function.comp_def]
          exact x5 R I hI)
    simp only [map_map, Function.comp_def] at this
    obtain ⟨q1, q2, q3⟩ := this
    have e1 : (ops.map fun r => (r.cnt W).map fun kc => (kc.2, ((kc.1.rho I).sem).rows)) =
        ops.map fun r => (r.cnt W).map fun kc => (kc.2, kc.1.size W) :=
      map_congr_left fun r hr => map_congr_left fun kc hkc => by rw [(hrow _ (hit r hr kc hkc)).1]
    rw [e1] at q1 q3
    change _ ~ range (DMat.kronL (ops.map (Rep.mat I))).rows at q1
    rw [hsq.1] at q1
    refine ⟨by rw [htotal]; exact q1, hsq, ?_⟩
    rw [htotal, map_map]
    exact q3
  have hgsize : ((g.map fun x => x.2.1).map (Rep.size W)).sum = (ops.map (Rep.size W)).prod := by
    obtain ⟨q1, q2, q3⟩ := gen ℤ (sizeInterp W) sizeInterp_sized
    have h1 : ((DMat.kronL (ops.map (Rep.mat (sizeInterp W)))).pick total total).rows = (ops.map (Rep.size W)).prod := by
      simp only [DMat.pick_rows]; exact length_of_perm_range q1
    rw [← h1, q3]
    symm
    refine (bdiag_isSq _ _ (Rep.size W) fun f hf => ?_).1
    obtain ⟨x, hx, rfl⟩ := mem_map.1 hf
    exact Rep.mat_sq sizeInterp_sized (g3 x hx).1
  have hgne : (g.map fun x => x.2.1) ≠ [] := by
    have hc : cart (ops.map (Rep.cnt W)) ≠ [] := by
      have : ∀ ls : List Rep, (∀ r ∈ ls, r.WF W) → cart (ls.map (Rep.cnt W)) ≠ [] := by
        intro ls
        induction ls with
        | nil => simp [cart]
        | cons x ls ih =>
          intro hw
          obtain ⟨kc, t, hc⟩ := exists_cons_of_ne_nil (Rep.cnt_ne (hw x (by simp)))
          obtain ⟨t', ts, hts⟩ := exists_cons_of_ne_nil (ih fun r hr => hw r (by simp [hr]))
          simp [cart, hc, hts]
      exact this ops h
    intro h0
    have : g = [] := by simpa using h0
    rw [this] at g2; exact hc g2.symm
  obtain ⟨q1, -, -⟩ := gen ℤ (sizeInterp W) sizeInterp_sized
  obtain ⟨s, s1, s2, s3, s4, -, s6⟩ := mkSum_spec (W := W) (extra := some total) hgne
    (by intro r hr; obtain ⟨x, hx, rfl⟩ := mem_map.1 hr; exact (g3 x hx).1)
    (by
      apply hS.st
      intro k hk'
      obtain ⟨r, hr, hkr⟩ := mem_flatMap.1 hk'
      obtain ⟨x, hx, rfl⟩ := mem_map.1 hr; exact (g3 x hx).2.1 k hkr)
    (by simp only [extraOf, Option.getD_some]; rw [hgsize]; exact q1)
  rw [hgsize] at s3
  refine ⟨s, hdist.trans s1, s2, ?_, s3, ?_⟩
  · intro k hk'
    obtain ⟨r, hr, hkr⟩ := (s4 k).1 hk'
    obtain ⟨x, hx, rfl⟩ := mem_map.1 hr; exact (g3 x hx).2.1 k hkr
  · intro R _ I hI
    obtain ⟨p1, p2, p3⟩ := gen R I hI
    apply s6 R I hI
    · rw [s3]; exact p2
    · simpa only [extraOf, Option.getD_some] using p3

end Verif
