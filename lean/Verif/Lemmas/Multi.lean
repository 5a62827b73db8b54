import Verif.Spec.Multi
import Verif.Lemmas.Direct
import Verif.Lemmas.RepDual
import Mathlib.Data.List.GetD

/-! Products over several groups, with one letter per group. -/
namespace Verif
open List NdArr

section
variable {K : Type} [DecidableEq K]

theorem takeAxes_range (ns : List ℕ) :
    (takeAxes 0 (ns.map range) ((NdArr.arange ((ns.map range).map length).prod).reshape ((ns.map range).map length))).data = range ns.prod := by
  have hl : (ns.map range).map length = ns := by rw [map_map]; simp [Function.comp_def]
  rw [hl]
  have e : (NdArr.arange ns.prod).reshape ns = NdArr.ofFn ns (ravel ns) := by
    simp only [NdArr.arange, NdArr.reshape, NdArr.ofFn, map_ravel_indices]
  rw [e, takeAxes_ofFn (ns.map range) _ 0 _ (by simp)]
  · rw [show (NdArr.ofFn ns fun idx => ravel ns (applyFrom 0 (ns.map range) idx)) = NdArr.ofFn ns (ravel ns) from ?_]
    · simp only [NdArr.ofFn, map_ravel_indices]
    · apply NdArr.ofFn_congr
      intro idx hidx
      congr 1
      simp only [applyFrom, take_zero, drop_zero, nil_append]
      have h := hidx
      clear hidx e hl
      induction ns generalizing idx with
      | nil => simp [indices] at h; subst h; rfl
      | cons n ns ih =>
        simp only [indices, mem_flatMap, mem_range, mem_map] at h
        obtain ⟨i, hi, j, hj, rfl⟩ := h
        simp only [map_cons, zipWith_cons_cons]
        rw [ih j hj, getD_range hi]
  · intro k hk
    simp only [length_map] at hk
    simp only [getD_eq_getElem?_getD, getElem?_map, zero_add]
    rw [getElem?_eq_getElem hk]
    simp

theorem prodCanon_one (size : K → ℕ) (k : K) (ns : List ℕ) (h0 : ns.sum ≠ 0) :
    prodCanon size [k] (ns.map fun n => [(k, n)]) (ns.map fun n => range (size k ^ n)) = ([(k, ns.sum)], range (size k ^ ns.sum)) := by
  have hg : ∀ n, Counter.get [(k, n)] k = n := by intro n; rw [Counter.get_cons, if_pos rfl]
  have h1 : (prodCanon size [k] (ns.map fun n => [(k, n)]) (ns.map fun n => range (size k ^ n))).1 = [(k, ns.sum)] := by
    rw [prodCanon_counter]
    simp only [map_cons, map_nil, map_map, Function.comp_def, hg, map_id']
    simp [h0]
  have hall : allKeys (ns.map fun n => ([(k, n)] : Counter K)) = replicate ns.sum k := by
    clear h0 h1
    induction ns with
    | nil => rfl
    | cons n ns ih =>
      simp only [allKeys, map_cons, flatMap_cons, sum_cons] at ih ⊢
      rw [ih, replicate_add]
      simp [Counter.expand]
  have hax : (prodMerge (ns.map fun n => [(k, n)]) (axisIds 0 (ns.map fun n => [(k, n)])) [k]).2 = range ns.sum := by
    rw [prodMerge_axes _ _ (by intro c hc; obtain ⟨n, -, rfl⟩ := mem_map.1 hc; simp [Counter.keys]), labAxes, hall]
    simp only [flatMap_cons, flatMap_nil, append_nil]
    rw [filter_eq_self.2, zipIdx_map_snd, length_replicate, range_eq_range']
    intro x hx
    have := mem_map_of_mem (f := Prod.fst) hx
    rw [zipIdx_map_fst] at this
    simpa using eq_of_mem_replicate this
  have h2 : (prodCanon size [k] (ns.map fun n => [(k, n)]) (ns.map fun n => range (size k ^ n))).2 = range (size k ^ ns.sum) := by
    simp only [prodCanon, hax]
    have hs : ((ns.map fun n => ([(k, n)] : Counter K)).flatMap fun c => (Counter.expand c).map size) = replicate ns.sum (size k) := by
      have := congrArg (map size) hall
      rw [map_replicate, allKeys, map_flatMap] at this
      exact this
    rw [hs]
    have ht := takeAxes_range (ns.map fun n => size k ^ n)
    have hp : (ns.map fun n => size k ^ n).prod = size k ^ ns.sum := by
      clear h0 h1 hall hax hs ht
      induction ns with
      | nil => rfl
      | cons n ns ih => simp [ih, pow_add]
    rw [hp, map_map] at ht
    have hm : (range ∘ fun n => size k ^ n) = fun n => range (size k ^ n) := rfl
    rw [hm] at ht
    have := transpose_range_data ((takeAxes 0 (ns.map fun n => range (size k ^ n)) ((NdArr.arange ((ns.map fun n => range (size k ^ n)).map length).prod).reshape
      ((ns.map fun n => range (size k ^ n)).map length))).reshape (replicate ns.sum (size k))) (by
        simp only [NdArr.reshape, prod_replicate] at ht ⊢
        rw [ht, length_range])
    simp only [NdArr.reshape, length_replicate] at this ht ⊢
    rw [this, ht]
  ext1
  · exact h1
  · exact h2
end

variable {W : World} {Γ : Gid → Prop} {L : Gid → Atom}

theorem Atom.lt_self (a : Atom) : Atom.lt W a a = false := by
  have h : Atom.lt W a a = Key.ltRep W (.atom a) (.atom a) := by
    cases a with
    | vec k g =>
      unfold Atom.lt Key.lt
      split <;> simp_all
    | dual k g => simp [Atom.lt, Key.lt]
  rw [h]
  unfold Key.ltRep
  simp only [lt_irrefl, if_false, reduceCtorEq, decide_false]
  rcases Key.G? W (.atom a) with _ | _ | g <;> simp

theorem Fac.power_one (a : Atom) : Fac.power W a 1 = .atom a := rfl

theorem Fac.power_ne {a : Atom} {n : ℕ} (h : n ≠ 1) : Fac.power W a n = .prod ⟨[(a, n)], range (a.size W ^ n)⟩ := by
  simp [Fac.power, h]

theorem Fac.power_counter (a : Atom) (n : ℕ) : (Fac.power W a n).counter = [(a, n)] := by
  by_cases h : n = 1
  · subst h; rfl
  · rw [Fac.power_ne h]; rfl

theorem Fac.power_size (a : Atom) (n : ℕ) : (Fac.power W a n).size W = a.size W ^ n := by
  rw [← Fac.counter_size, Fac.power_counter]; simp [Counter.prodSize]

theorem Fac.power_permOf (a : Atom) (n : ℕ) : (Fac.power W a n).permOf W = range (a.size W ^ n) := by
  by_cases h : n = 1
  · subst h; simp [Fac.power_one, Fac.permOf]
  · rw [Fac.power_ne h]; rfl

theorem Fac.power_base (a : Atom) (n : ℕ) : (Fac.power W a n).base W = Fac.power W a n := by
  by_cases h : n = 1
  · subst h; rfl
  · rw [Fac.power_ne h]; simp [Fac.base, PRep.size, Counter.prodSize]

theorem Fac.power_G (a : Atom) (n : ℕ) : (Fac.power W a n).G = a.G := by
  by_cases h : n = 1
  · subst h; rfl
  · rw [Fac.power_ne h]; simp [Fac.G, PRep.G]

theorem SortedCounter.one {K : Type} {lt : K → K → Bool} {k : K} (h : lt k k = false) {n : ℕ} (hn : n ≠ 0) : SortedCounter lt [(k, n)] where
  ne := by simp
  st := (SortedCounter.single h).st
  sorted := (SortedCounter.single h).sorted
  pos := by simpa using hn

theorem Fac.power_wf {a : Atom} (ha : a.G.isSome) {n : ℕ} (h0 : n ≠ 0) : (Fac.power W a n).WF W := by
  by_cases h : n = 1
  · subst h; exact ha
  · rw [Fac.power_ne h]
    refine ⟨SortedCounter.one (Atom.lt_self a) h0, ?_, ?_⟩
    · obtain ⟨g, hg⟩ := Option.isSome_iff_exists.1 ha
      exact ⟨g, by simpa [Counter.keys] using hg⟩
    · simp [PRep.size, Counter.prodSize]

theorem Fac.power_hashable (a : Atom) (n : ℕ) : (Fac.power W a n).hashable = true := by
  rw [← Fac.power_base]; exact Fac.hashable_base _

theorem Fac.power_mat {a : Atom} (ha : a.G.isSome) {n : ℕ} (h0 : n ≠ 0) {R : Type} [CommRing R] {I : Interp R} (hI : I.Sized W) :
    ((Fac.power W a n).rho I).sem = DMat.kronL (replicate n (a.rho I).sem) := by
  have hw := Fac.power_wf (W := W) ha h0
  have := (facArg_ok hI hw).pick
  simp only [facArg, Fac.power_permOf, Fac.power_counter] at this
  have hs := Fac.rho_sq hI hw
  rw [Fac.power_size] at hs
  have e : (((Fac.power W a n).rho I).sem).pick (range (a.size W ^ n)) (range (a.size W ^ n)) = ((Fac.power W a n).rho I).sem := by
    conv_rhs => rw [← DMat.pick_range ((Fac.power W a n).rho I).sem, hs.1, hs.2]
  rw [e] at this
  rw [this]
  simp [Counter.expand]

/-- `ProductRep` of powers of one letter. -/
theorem mkProd_power {a : Atom} (ha : a.G.isSome) {ns : List ℕ} (hne : ns ≠ []) (h0 : ∀ n ∈ ns, n ≠ 0) {extra : Option (List ℕ)} :
    mkProd W (ns.map (Fac.power W a)) extra = .ok ⟨[(a, ns.sum)], withExtra extra (range (a.size W ^ ns.sum))⟩ := by
  obtain ⟨g, hg⟩ := Option.isSome_iff_exists.1 ha
  have hs0 : ns.sum ≠ 0 := by
    obtain ⟨n, t, rfl⟩ := exists_cons_of_ne_nil hne
    have := h0 n (by simp)
    simp only [sum_cons]; omega
  unfold mkProd
  have he : (ns.map (Fac.power W a)).isEmpty = false := by simpa using hne
  rw [he, mapM_ok fun f hf => Fac.canon_wf (by obtain ⟨n, hn, rfl⟩ := mem_map.1 hf; exact Fac.power_wf ha (h0 n hn))]
  show prodFinish (prodCompute W (((ns.map (Fac.power W a)).map fun f => (f.base W, f.permOf W)).map fun c => c.1.counter)
    (((ns.map (Fac.power W a)).map fun f => (f.base W, f.permOf W)).map (·.2))).1 (withExtra extra (prodCompute W (((ns.map (Fac.power W a)).map fun f => (f.base W, f.permOf W)).map fun c => c.1.counter)
    (((ns.map (Fac.power W a)).map fun f => (f.base W, f.permOf W)).map (·.2))).2) = _
  simp only [map_map, Function.comp_def, Fac.counter_base, Fac.power_counter, Fac.power_permOf]
  have hu : W.sorted (Atom.lt W) (unionKeys W.setOrder (ns.map fun n => ([(a, n)] : Counter Atom))) = [a] := by
    have hn := nodup_unionKeys W (cs := ns.map fun n => ([(a, n)] : Counter Atom))
      (by intro c hc; obtain ⟨n, -, rfl⟩ := mem_map.1 hc; simp [Counter.keys])
    have hp : unionKeys W.setOrder (ns.map fun n => ([(a, n)] : Counter Atom)) ~ [a] := by
      rw [perm_ext_iff_of_nodup hn (by simp)]
      intro x
      rw [mem_unionKeys, mem_singleton]
      constructor
      · rintro ⟨c, hc, hx⟩
        obtain ⟨n, -, rfl⟩ := mem_map.1 hc
        simpa [Counter.keys] using hx
      · rintro rfl
        obtain ⟨n, t, rfl⟩ := exists_cons_of_ne_nil hne
        exact ⟨[(x, n)], by simp, by simp [Counter.keys]⟩
    exact perm_singleton.1 ((W.sorted_perm _ _).trans hp)
  have hc : prodCompute W (ns.map fun n => ([(a, n)] : Counter Atom)) (ns.map fun n => range (a.size W ^ n)) =
      ([(a, ns.sum)], range (a.size W ^ ns.sum)) := by
    unfold prodCompute
    rw [hu, prodCanon_one _ _ _ hs0]
  rw [hc]
  exact prodFinish_ok (g := g) (by simp) (by simpa [Counter.keys] using hg)

theorem Fac.mul_power {a : Atom} (ha : a.G.isSome) {m n : ℕ} (hm : m ≠ 0) (hn : n ≠ 0) :
    Fac.mul W (Fac.power W a m) (Fac.power W a n) = .ok (Fac.power W a (m + n)) := by
  have := mkProd_power (W := W) ha (ns := [m, n]) (by simp) (by simp [hm, hn]) (extra := none)
  simp only [map_cons, map_nil, sum_cons, sum_nil, add_zero, withExtra] at this
  unfold Fac.mul
  rw [this, Fac.power_ne (by omega)]; rfl

theorem Fac.pow_power {a : Atom} (ha : a.G.isSome) {m : ℕ} (hm : m ≠ 0) : ∀ c : ℕ, Fac.pow W (Fac.power W a m) (c + 1) = .ok (Fac.power W a (m * (c + 1)))
  | 0 => by simp [Fac.pow]
  | c + 1 => by
    rw [Fac.pow, Fac.pow_power ha hm c]
    show Fac.mul W (Fac.power W a (m * (c + 1))) (Fac.power W a m) = _
    rw [Fac.mul_power ha (by positivity) hm]
    rfl

/-! ### Ordering of the powers -/

theorem Fac.lt_prod {x y : Fac} (h : (∃ p, x = .prod p) ∨ ∃ p, y = .prod p) : Fac.lt W x y = Key.ltRep W (.fac x) (.fac y) := by
  unfold Fac.lt
  rcases h with ⟨p, rfl⟩ | ⟨p, rfl⟩
  · rfl
  · cases x with
    | prod q => rfl
    | atom a =>
      cases a with
      | vec k g =>
        unfold Key.lt
        split <;> simp_all
      | dual k g => simp [Key.lt]

theorem World.Letters.lt_power (hL : W.Letters Γ L) {g h : Gid} (hg : Γ g) (hh : Γ h) {m n : ℕ} (hm : m ≠ 0) (hn : n ≠ 0) :
    Fac.lt W (Fac.power W (L g) m) (Fac.power W (L h) n) = true ↔ W.ghash g < W.ghash h ∨ g = h ∧ m < n := by
  by_cases h1 : m = 1 ∧ n = 1
  · obtain ⟨rfl, rfl⟩ := h1
    simp only [lt_irrefl, and_false, or_false, Fac.power_one]
    show Atom.lt W (L g) (L h) = true ↔ _
    by_cases hgh : g = h
    · subst hgh; rw [Atom.lt_self]; simp
    · rw [hL.ord g h hg hh hgh]; simp
  · have hp : (∃ p, Fac.power W (L g) m = .prod p) ∨ ∃ p, Fac.power W (L h) n = .prod p := by
      by_cases h2 : m = 1
      · exact Or.inr ⟨_, Fac.power_ne fun h3 => h1 ⟨h2, h3⟩⟩
      · exact Or.inl ⟨_, Fac.power_ne h2⟩
    rw [Fac.lt_prod hp]
    have G1 : Key.G? W (.fac (Fac.power W (L g) m)) = some (some g) := by simp [Key.G?, Fac.power_G, hL.G g hg]
    have G2 : Key.G? W (.fac (Fac.power W (L h) n)) = some (some h) := by simp [Key.G?, Fac.power_G, hL.G h hh]
    by_cases hgh : g = h
    · subst hgh
      rw [Key.ltRep_sameG (by simp) G1 G2, bySize_iff]
      simp only [Key.size, Fac.power_size, lt_irrefl, false_or, true_and]
      have h2 : 1 < (L g).size W := hL.two g hg
      rw [Nat.pow_lt_pow_iff_right h2, Nat.pow_right_inj h2]
      constructor
      · rintro (h3 | ⟨rfl, h3⟩)
        · exact h3
        · exact absurd h3 (lt_irrefl _)
      · exact Or.inl
    · have hne : W.ghash g ≠ W.ghash h := fun e => hgh (hL.inj g h hg hh e)
      unfold Key.ltRep
      rw [if_neg (by simp), G1, G2]
      simp only
      by_cases h2 : W.ghash g < W.ghash h
      · simp [h2]
      · have h3 : W.ghash h < W.ghash g := by omega
        simp [h2, h3, hgh]

theorem World.Letters.power_inj (hL : W.Letters Γ L) {g h : Gid} (hg : Γ g) (hh : Γ h) {m n : ℕ}
    (e : Fac.power W (L g) m = Fac.power W (L h) n) : g = h ∧ m = n := by
  have h1 := congrArg Fac.counter e
  simp only [Fac.power_counter, cons.injEq, and_true, Prod.mk.injEq] at h1
  have := congrArg Atom.G h1.1
  rw [hL.G g hg, hL.G h hh] at this
  exact ⟨Option.some.inj this, h1.2⟩

/-- The powers of the letters are strictly totally ordered. -/
theorem World.Letters.st (hL : W.Letters Γ L) {l : List Fac} (h : ∀ f ∈ l, ∃ g n, Γ g ∧ n ≠ 0 ∧ f = Fac.power W (L g) n) :
    StrictTotalOn (Fac.lt W) l where
  irrefl a ha := by
    obtain ⟨g, n, hg, hn, rfl⟩ := h a ha
    rw [← Bool.not_eq_true, hL.lt_power hg hg hn hn]; omega
  trans a ha b hb c hc h1 h2 := by
    obtain ⟨g, n, hg, hn, rfl⟩ := h a ha
    obtain ⟨g', n', hg', hn', rfl⟩ := h b hb
    obtain ⟨g'', n'', hg'', hn'', rfl⟩ := h c hc
    rw [hL.lt_power hg hg' hn hn'] at h1
    rw [hL.lt_power hg' hg'' hn' hn''] at h2
    rw [hL.lt_power hg hg'' hn hn'']
    rcases h1 with h1 | ⟨rfl, h1⟩ <;> rcases h2 with h2 | ⟨rfl, h2⟩
    · left; omega
    · left; exact h1
    · left; exact h2
    · right; exact ⟨rfl, by omega⟩
  total a ha b hb hab := by
    obtain ⟨g, n, hg, hn, rfl⟩ := h a ha
    obtain ⟨g', n', hg', hn', rfl⟩ := h b hb
    rw [hL.lt_power hg hg' hn hn', hL.lt_power hg' hg hn' hn]
    by_cases e : g = g'
    · subst e
      have : n ≠ n' := by rintro rfl; exact hab rfl
      simp only [lt_irrefl, true_and, false_or]; omega
    · have : W.ghash g ≠ W.ghash g' := fun e' => e (hL.inj _ _ hg hg' e')
      omega

/-! ### Regrouping by group -/

/-- the items of the dict `group_dict` -/
def gdOf (W : World) (L : Gid → Atom) (l : List (Gid × ℕ)) : List (Option Gid × Fac) := l.map fun x => (some x.1, Fac.power W (L x.1) x.2)

theorem groupInsert_new {g : Gid} {x : Fac} : ∀ {l : List (Gid × ℕ)}, (∀ y ∈ l, y.1 ≠ g) →
    groupInsert W (some g) x (gdOf W L l) = .ok (gdOf W L l ++ [(some g, x)])
  | [], _ => rfl
  | y :: l, h => by
    have h1 : y.1 ≠ g := h y (by simp)
    simp only [gdOf, map_cons, groupInsert, Option.some.injEq]
    rw [if_neg h1]
    have := groupInsert_new (x := x) (l := l) fun z hz => h z (by simp [hz])
    unfold gdOf at this
    rw [this]; rfl

theorem groupInsert_old (hL : W.Letters Γ L) {g : Gid} (hg : Γ g) {m n : ℕ} (hm : m ≠ 0) (hn : n ≠ 0) : ∀ {l : List (Gid × ℕ)}, (∀ y ∈ l, y.1 ≠ g) →
    groupInsert W (some g) (Fac.power W (L g) n) (gdOf W L (l ++ [(g, m)])) = .ok (gdOf W L (l ++ [(g, m + n)]))
  | [], _ => by
    simp only [gdOf, nil_append, map_cons, map_nil, groupInsert, if_true]
    rw [Fac.mul_power (by rw [hL.G g hg]; rfl) hm hn]; rfl
  | y :: l, h => by
    have h1 : y.1 ≠ g := h y (by simp)
    simp only [gdOf, cons_append, map_cons, groupInsert, Option.some.injEq]
    rw [if_neg h1]
    have := groupInsert_old hL hg hm hn (l := l) fun z hz => h z (by simp [hz])
    unfold gdOf at this
    rw [this]; rfl

/-- the letters listed with multiplicity -/
def spell (l : List (Gid × ℕ)) : List Gid := l.flatMap fun x => replicate x.2 x.1

theorem groupLoop_spec (hL : W.Letters Γ L) : ∀ (t : List ((Gid × ℕ) × ℕ)) (acc : List (Gid × ℕ)),
    (∀ x ∈ t, Γ x.1.1 ∧ x.1.2 ≠ 0 ∧ x.2 ≠ 0) → (∀ x ∈ acc, Γ x.1 ∧ x.2 ≠ 0) →
    (t.Pairwise fun x y => W.ghash x.1.1 ≤ W.ghash y.1.1) → (acc.Pairwise fun x y => W.ghash x.1 < W.ghash y.1) →
    (∀ x ∈ acc, ∀ y ∈ t, W.ghash x.1 ≤ W.ghash y.1.1) →
    ∃ acc' : List (Gid × ℕ), groupLoop W (t.map fun x => (Fac.power W (L x.1.1) x.1.2, x.2)) (gdOf W L acc) = .ok (gdOf W L acc') ∧
      (∀ x ∈ acc', Γ x.1 ∧ x.2 ≠ 0) ∧ (acc'.Pairwise fun x y => W.ghash x.1 < W.ghash y.1) ∧
      spell acc' = spell acc ++ t.flatMap fun x => replicate (x.1.2 * x.2) x.1.1
  | [], acc, _, h2, _, h4, _ => ⟨acc, rfl, h2, h4, by simp⟩
  | ((g, n), c) :: t, acc, h1, h2, h3, h4, h5 => by
    obtain ⟨hg, hn, hc⟩ := h1 ((g, n), c) (by simp)
    simp only at hg hn hc
    have hG := hL.G g hg
    have hs : (L g).G.isSome := by rw [hG]; rfl
    obtain ⟨c, rfl⟩ : ∃ c', c = c' + 1 := ⟨c - 1, by omega⟩
    have hnc : n * (c + 1) ≠ 0 := by positivity
    have step : ∃ acc1 : List (Gid × ℕ), groupInsert W (some g) (Fac.power W (L g) (n * (c + 1))) (gdOf W L acc) = .ok (gdOf W L acc1) ∧
        (∀ x ∈ acc1, Γ x.1 ∧ x.2 ≠ 0) ∧ (acc1.Pairwise fun x y => W.ghash x.1 < W.ghash y.1) ∧
        (∀ x ∈ acc1, W.ghash x.1 ≤ W.ghash g) ∧ spell acc1 = spell acc ++ replicate (n * (c + 1)) g := by
      have hle : ∀ x ∈ acc, W.ghash x.1 ≤ W.ghash g := fun x hx => h5 x hx ((g, n), c + 1) (by simp)
      by_cases hm : ∃ x ∈ acc, x.1 = g
      · -- the group is the last one
        obtain ⟨⟨g', m⟩, hx, rfl⟩ := hm
        obtain ⟨l, l', rfl⟩ := append_of_mem hx
        have hl' : l' = [] := by
          rcases l' with _ | ⟨y, l'⟩
          · rfl
          · rw [pairwise_append, pairwise_cons] at h4
            have h6 := h4.2.1.1 y (by simp)
            have h7 := hle y (by simp)
            simp only at h6 h7; omega
        subst hl'
        have hm0 := (h2 (g', m) (by simp)).2
        rw [pairwise_append] at h4
        have hlt : ∀ x ∈ l, W.ghash x.1 < W.ghash g' := fun x hx => h4.2.2 x hx (g', m) (by simp)
        refine ⟨l ++ [(g', m + n * (c + 1))], groupInsert_old hL hg hm0 hnc fun y hy => ?_, ?_, ?_, ?_, ?_⟩
        · rintro rfl; exact lt_irrefl _ (hlt y hy)
        · intro x hx
          rcases mem_append.1 hx with h | h
          · exact h2 x (by simp [h])
          · rw [mem_singleton] at h; subst h; exact ⟨hg, by simp only; omega⟩
        · rw [pairwise_append]
          refine ⟨h4.1, by simp, ?_⟩
          intro x hx y hy
          rw [mem_singleton] at hy; subst hy; exact hlt x hx
        · intro x hx
          rcases mem_append.1 hx with h | h
          · exact (hlt x h).le
          · rw [mem_singleton] at h; subst h; exact le_refl _
        · simp only [spell, flatMap_append, flatMap_cons, flatMap_nil, append_nil, append_assoc]
          rw [replicate_add]
      · have hm' : ∀ y ∈ acc, y.1 ≠ g := fun y hy e => hm ⟨y, hy, e⟩
        have hlt : ∀ x ∈ acc, W.ghash x.1 < W.ghash g := fun x hx =>
          lt_of_le_of_ne (hle x hx) fun e => hm' x hx (hL.inj _ _ (h2 x hx).1 hg e)
        refine ⟨acc ++ [(g, n * (c + 1))], ?_, ?_, ?_, ?_, ?_⟩
        · rw [groupInsert_new hm']; simp [gdOf]
        · intro x hx
          rcases mem_append.1 hx with h | h
          · exact h2 x h
          · rw [mem_singleton] at h; subst h; exact ⟨hg, hnc⟩
        · rw [pairwise_append]
          refine ⟨h4, by simp, ?_⟩
          intro x hx y hy
          rw [mem_singleton] at hy; subst hy; exact hlt x hx
        · intro x hx
          rcases mem_append.1 hx with h | h
          · exact (hlt x h).le
          · rw [mem_singleton] at h; subst h; exact le_refl _
        · simp [spell]
    obtain ⟨acc1, a1, a2, a3, a4, a5⟩ := step
    rw [pairwise_cons] at h3
    obtain ⟨acc', b1, b2, b3, b4⟩ := groupLoop_spec hL t acc1 (fun x hx => h1 x (by simp [hx])) a2 h3.2 a3
      (fun x hx y hy => (a4 x hx).trans (h3.1 y hy))
    refine ⟨acc', ?_, b2, b3, ?_⟩
    · simp only [map_cons, groupLoop]
      rw [Fac.pow_power hs hn c]
      show (do
        let acc' ← groupInsert W (Fac.power W (L g) n).G (Fac.power W (L g) (n * (c + 1))) (gdOf W L acc)
        groupLoop W (t.map fun x => (Fac.power W (L x.1.1) x.1.2, x.2)) acc' : Py _) = _
      rw [Fac.power_G, hG, a1]
      exact b1
    · rw [b4, a5]; simp

/-! ### The constructor -/

theorem exists_map_of {α β : Type*} {f : β → α} {P : β → Prop} : ∀ {l : List α}, (∀ x ∈ l, ∃ y, P y ∧ x = f y) →
    ∃ l' : List β, l = l'.map f ∧ ∀ y ∈ l', P y
  | [], _ => ⟨[], rfl, by simp⟩
  | x :: l, h => by
    obtain ⟨y, hy, rfl⟩ := h x (by simp)
    obtain ⟨l', rfl, hl'⟩ := exists_map_of (l := l) fun z hz => h z (by simp [hz])
    exact ⟨y :: l', rfl, by
      intro z hz
      rcases mem_cons.1 hz with rfl | hz
      · exact hy
      · exact hl' z hz⟩

theorem World.Multi.dcnt_keys {k : Key} (h : W.Multi Γ L (k.base W)) : ∀ f ∈ (k.dcnt W).keys, ∃ g n, Γ g ∧ n ≠ 0 ∧ f = Fac.power W (L g) n := by
  cases k with
  | scalar => simp [Key.dcnt, Counter.keys]
  | fac f =>
    intro x hx
    simp only [Key.dcnt, Counter.keys, map_cons, map_nil, mem_singleton] at hx
    subst hx; exact h
  | dprod d =>
    obtain ⟨l, -, h2, -, h4, -⟩ := h
    intro x hx
    simp only at h4
    simp only [Key.dcnt, h4, Counter.keys, map_map, mem_map] at hx
    obtain ⟨y, hy, rfl⟩ := hx
    exact ⟨y.1, y.2, (h2 y hy).1, (h2 y hy).2, rfl⟩

/-- Two factors of different groups. -/
theorem World.Letters.two_groups (hL : W.Letters Γ L) {d : DRep} (h : W.Multi Γ L (Key.base W (.dprod d))) :
    ∃ f ∈ ((Key.dprod d).dcnt W).keys, ∃ f' ∈ ((Key.dprod d).dcnt W).keys, f.G ≠ f'.G := by
  obtain ⟨l, h1, h2, h3, h4, -⟩ := h
  simp only at h4
  match l, h1, h2, h3, h4 with
  | x :: y :: l, _, h2, h3, h4 =>
    refine ⟨Fac.power W (L x.1) x.2, by simp [Key.dcnt, h4, Counter.keys], Fac.power W (L y.1) y.2, by simp [Key.dcnt, h4, Counter.keys], ?_⟩
    rw [Fac.power_G, Fac.power_G, hL.G _ (h2 x (by simp)).1, hL.G _ (h2 y (by simp)).1]
    intro e
    have : W.ghash x.1 < W.ghash y.1 := (pairwise_cons.1 h3).1 y (by simp)
    rw [Option.some.inj e] at this
    exact absurd this (lt_irrefl _)

theorem Key.dcnt_ne {k : Key} (h : k.WF W) (hk : k ≠ .scalar) : k.dcnt W ≠ [] := by
  cases k with
  | scalar => exact absurd rfl hk
  | fac f => simp [Key.dcnt]
  | dprod d => exact (DRep.WF.cnt h).ne

theorem DMat.kronL_replicate_mul {R : Type} [CommRing R] (A : DMat R) (n : ℕ) : ∀ c, kronL (replicate c (kronL (replicate n A))) = kronL (replicate (n * c) A)
  | 0 => by simp
  | c + 1 => by
    rw [replicate_succ, Nat.mul_succ, Nat.add_comm, replicate_add, DMat.kronL_append, ← DMat.kronL_replicate_mul A n c]; rfl

/-- The `DirectProduct` constructor on products of the letters. -/
theorem World.Letters.mkDirect (hL : W.Letters Γ L) {ops : List Key} (hne : ops ≠ [])
    (h : ∀ k ∈ ops, k.WF W ∧ W.Multi Γ L (k.base W) ∧ k ≠ .scalar)
    (htwo : ∃ k ∈ ops, ∃ f ∈ (k.dcnt W).keys, ∃ k' ∈ ops, ∃ f' ∈ (k'.dcnt W).keys, f.G ≠ f'.G) {extra : Option (List ℕ)}
    (hex : extraOf extra (ops.map (Key.size W)).prod ~ range (ops.map (Key.size W)).prod) :
    ∃ d, Verif.mkDirect W ops extra = .ok d ∧ d.WF W ∧ W.Multi Γ L (Key.base W (.dprod d)) ∧ d.size W = (ops.map (Key.size W)).prod ∧
      ∀ (R : Type) [CommRing R] (I : Interp R), I.Sized W → ∀ D : DMat R, D.IsSq (d.size W) →
        D.pick (extraOf extra (d.size W)) (extraOf extra (d.size W)) = DMat.kronL (ops.map fun k => (k.rho I).sem) →
        (d.rho I).sem = D := by
  obtain ⟨cs, hcs⟩ : ∃ cs, cs = ops.map (Key.dcnt W) := ⟨_, rfl⟩
  have hcn : ∀ c ∈ cs, c.keys.Nodup := by
    rw [hcs]; intro c hc; obtain ⟨k, hk, rfl⟩ := mem_map.1 hc; exact Key.dcnt_nodup (h k hk).1
  have hpos : ∀ c ∈ cs, ∀ kc ∈ c, kc.2 ≠ 0 := by
    rw [hcs]; intro c hc kc hkc; obtain ⟨k, hk, rfl⟩ := mem_map.1 hc
    rw [Key.dcnt_pos (h k hk).1 kc hkc]; exact one_ne_zero
  obtain ⟨u, hu⟩ : ∃ u, u = W.sorted (Fac.lt W) (unionKeys W.setOrder cs) := ⟨_, rfl⟩
  have hum : ∀ f, f ∈ u ↔ ∃ c ∈ cs, f ∈ c.keys := by
    intro f; rw [hu, (W.sorted_perm _ _).mem_iff, mem_unionKeys]
  have hup : ∀ f ∈ u, ∃ g n, Γ g ∧ n ≠ 0 ∧ f = Fac.power W (L g) n := by
    intro f hf
    obtain ⟨c, hc, hfc⟩ := (hum f).1 hf
    rw [hcs] at hc
    obtain ⟨k, hk, rfl⟩ := mem_map.1 hc
    exact World.Multi.dcnt_keys (h k hk).2.1 f hfc
  have hsort : u.Pairwise fun a b => Fac.lt W a b = true := by
    rw [hu]
    apply W.sorted_ord _ _ (nodup_unionKeys W hcn)
    exact hL.st fun f hf => hup f (by rw [hu, (W.sorted_perm _ _).mem_iff]; exact hf)
  obtain ⟨r, hr⟩ : ∃ r, r = dprodCompute W (ops.map (Key.dcnt W)) (ops.map (Key.permOf W)) := ⟨_, rfl⟩
  have hr1 : r.1 = u.map fun k => (k, (cs.map fun c => c.get k).sum) := by
    rw [hr, ← hcs, dprodCompute_counter hcn hpos, hu]
  have hcount : ∀ k ∈ u, (cs.map fun c => c.get k).sum ≠ 0 := by
    intro k hk
    obtain ⟨c, hc, hkc⟩ := (hum k).1 hk
    obtain ⟨kn, hkn, rfl⟩ := mem_map.1 hkc
    have h1 := Counter.get_eq_of_mem (hcn c hc) (n := kn.2) hkn
    have h2 : c.get kn.1 ≤ (cs.map fun c => c.get kn.1).sum := List.le_sum_of_mem (mem_map_of_mem (f := fun c => Counter.get c kn.1) hc)
    have := hpos c hc kn hkn
    omega
  have hune : u ≠ [] := by
    obtain ⟨k, t, rfl⟩ := exists_cons_of_ne_nil hne
    obtain ⟨kc, t', hk⟩ := exists_cons_of_ne_nil (Key.dcnt_ne (h k (by simp)).1 (h k (by simp)).2.2)
    intro h0
    have : kc.1 ∈ u := (hum _).2 ⟨k.dcnt W, by simp [hcs], by simp [hk, Counter.keys]⟩
    rw [h0] at this; simp at this
  obtain ⟨v, rfl, hv⟩ := exists_map_of (f := fun x : Gid × ℕ => Fac.power W (L x.1) x.2) (P := fun x => Γ x.1 ∧ x.2 ≠ 0) (l := u)
    (by intro f hf; obtain ⟨g, n, h1, h2, h3⟩ := hup f hf; exact ⟨(g, n), ⟨h1, h2⟩, h3⟩)
  obtain ⟨cnt, hcnt⟩ : ∃ cnt : Gid × ℕ → ℕ, cnt = fun x => (cs.map fun c => c.get (Fac.power W (L x.1) x.2)).sum := ⟨_, rfl⟩
  have hr2 : r.1 = (v.map fun x => (x, cnt x)).map fun x => (Fac.power W (L x.1.1) x.1.2, x.2) := by
    rw [hr1, map_map, map_map, hcnt]; rfl
  have hvp : v.Pairwise fun x y => W.ghash x.1 ≤ W.ghash y.1 := by
    rw [pairwise_map] at hsort
    have : v.Pairwise fun x y => x ∈ v ∧ y ∈ v ∧ Fac.lt W (Fac.power W (L x.1) x.2) (Fac.power W (L y.1) y.2) = true := by
      rw [pairwise_iff_getElem] at hsort ⊢
      intro i j hi hj hij
      exact ⟨getElem_mem _, getElem_mem _, hsort i j hi hj hij⟩
    refine this.imp fun {x y} hxy => ?_
    obtain ⟨hx, hy, hlt⟩ := hxy
    rw [hL.lt_power (hv x hx).1 (hv y hy).1 (hv x hx).2 (hv y hy).2] at hlt
    rcases hlt with h1 | ⟨h1, -⟩
    · exact h1.le
    · rw [h1]
  obtain ⟨acc, a1, a2, a3, a4⟩ := groupLoop_spec hL (v.map fun x => (x, cnt x)) []
    (by
      intro x hx; obtain ⟨y, hy, rfl⟩ := mem_map.1 hx
      refine ⟨(hv y hy).1, (hv y hy).2, ?_⟩
      rw [hcnt]; exact hcount _ (mem_map_of_mem (f := fun x : Gid × ℕ => Fac.power W (L x.1) x.2) hy))
    (by simp) (by rw [pairwise_map]; exact hvp) Pairwise.nil (by simp)
  rw [← hr2] at a1
  have hacc2 : 2 ≤ acc.length := by
    obtain ⟨k, hk, f, hf, k', hk', f', hf', hG⟩ := htwo
    have key : ∀ k ∈ ops, ∀ f ∈ (k.dcnt W).keys, ∃ x ∈ acc, f.G = some x.1 := by
      intro k hk f hf
      have hu' := (hum f).2 ⟨k.dcnt W, by rw [hcs]; exact mem_map_of_mem hk, hf⟩
      obtain ⟨x, hx, rfl⟩ := mem_map.1 hu'
      have hx1 : x.2 * cnt x ≠ 0 := mul_ne_zero (hv x hx).2 (by rw [hcnt]; exact hcount _ (mem_map_of_mem (f := fun x : Gid × ℕ => Fac.power W (L x.1) x.2) hx))
      have hm : x.1 ∈ spell acc := by
        rw [a4]
        simp only [spell, mem_append, mem_flatMap, mem_map, mem_replicate]
        exact Or.inr ⟨(x, cnt x), ⟨x, hx, rfl⟩, hx1, rfl⟩
      simp only [spell, mem_flatMap, mem_replicate] at hm
      obtain ⟨y, hy, -, e⟩ := hm
      exact ⟨y, hy, by rw [Fac.power_G, hL.G _ (hv x hx).1, e]⟩
    obtain ⟨x, hx, ex⟩ := key k hk f hf
    obtain ⟨y, hy, ey⟩ := key k' hk' f' hf'
    match acc, hx, hy with
    | [z], hx, hy =>
      simp only [mem_singleton] at hx hy
      subst hx hy
      exact absurd (ex.trans ey.symm) hG
    | _ :: _ :: _, _, _ => simp
  have hacc : acc ≠ [] := by
    rintro rfl
    simp at hacc2
  have hs : ∀ g, Γ g → (L g).G.isSome := fun g hg => by rw [hL.G g hg]; rfl
  have hgk : (gdOf W L acc).map (·.2) = acc.map fun x => Fac.power W (L x.1) x.2 := by rw [gdOf, map_map]; rfl
  have hkst : StrictTotalOn (Fac.lt W) ((gdOf W L acc).map (·.2)) := hL.st fun f hf => by
    rw [hgk] at hf
    obtain ⟨x, hx, rfl⟩ := mem_map.1 hf
    exact ⟨x.1, x.2, (a2 x hx).1, (a2 x hx).2, rfl⟩
  have hkp : ((gdOf W L acc).map (·.2)).Pairwise fun a b => Fac.lt W a b = true := by
    rw [hgk, pairwise_map]
    have : acc.Pairwise fun x y => x ∈ acc ∧ y ∈ acc ∧ W.ghash x.1 < W.ghash y.1 := by
      rw [pairwise_iff_getElem] at a3 ⊢
      intro i j hi hj hij
      exact ⟨getElem_mem _, getElem_mem _, a3 i j hi hj hij⟩
    refine this.imp fun {x y} hxy => ?_
    obtain ⟨hx, hy, hlt⟩ := hxy
    rw [hL.lt_power (a2 x hx).1 (a2 y hy).1 (a2 x hx).2 (a2 y hy).2]; exact Or.inl hlt
  have hgd : GroupOK W (dprodCompute W (ops.map (Key.dcnt W)) (ops.map (Key.permOf W))).1 (gdOf W L acc) := by
    rw [← hr]
    refine ⟨a1, ?_, ?_, hkst.nodup hkp, ?_⟩
    · intro x hx
      obtain ⟨y, hy, rfl⟩ := mem_map.1 hx
      exact Fac.power_wf (hs _ (a2 y hy).1) (a2 y hy).2
    · intro x hx
      obtain ⟨y, hy, rfl⟩ := mem_map.1 hx
      exact Fac.power_hashable _ _
    · intro R _ I hI
      have e1 : ((gdOf W L acc).map fun x => (x.2.rho I).sem) = acc.map fun x => DMat.kronL (replicate x.2 ((L x.1).rho I).sem) := by
        rw [gdOf, map_map]
        exact map_congr_left fun x hx => Fac.power_mat (hs _ (a2 x hx).1) (a2 x hx).2 hI
      have e2 : (spell acc).map (fun g => ((L g).rho I).sem) = acc.flatMap fun x => replicate x.2 ((L x.1).rho I).sem := by
        rw [spell, map_flatMap]; simp
      have e3 : (r.1.expand.map fun f => (f.rho I).sem) = v.flatMap fun x => replicate (cnt x) (DMat.kronL (replicate x.2 ((L x.1).rho I).sem)) := by
        rw [hr2, Counter.expand, map_map, flatMap_map, map_flatMap]
        apply flatMap_congr
        intro x hx
        simp only [Function.comp, map_replicate]
        rw [Fac.power_mat (hs _ (hv x hx).1) (hv x hx).2 hI]
      rw [e1, ← DMat.kronL_flatMap, ← e2, a4, e3, DMat.kronL_flatMap]
      simp only [spell, flatMap_nil, nil_append, flatMap_map, map_flatMap, map_replicate]
      rw [DMat.kronL_flatMap]
      congr 1
      apply map_congr_left
      intro x _
      exact (DMat.kronL_replicate_mul _ _ _).symm
  obtain ⟨d, d1, d2, d3, d4, d5⟩ := mkDirect_core hne (fun k hk => ⟨(h k hk).1, (h k hk).2.2⟩) hgd hex
  rw [W.sorted_eq_self hkst hkp] at d4
  have hkeys : d.c.keys = (gdOf W L acc).map (·.2) := by
    rw [d4, Counter.keys, map_map]; simp [Function.comp_def]
  have hwf : d.WF W := by
    refine ⟨⟨?_, by rw [hkeys]; exact hkst, by rw [hkeys]; exact hkp, ?_⟩, d2.one, d2.key, ?_, d2.perm⟩
    · rw [d4, gdOf]; simpa using hacc
    · intro kc hkc; rw [d2.one kc hkc]; exact one_ne_zero
    · rw [hkeys, hgk]
      intro f hf
      obtain ⟨x, hx, rfl⟩ := mem_map.1 hf
      exact Fac.power_hashable _ _
  refine ⟨d, d1, hwf, ⟨acc, hacc2, a2, a3, ?_, rfl⟩, d3, d5⟩
  simp only
  rw [d4, hgk, map_map]; rfl

end Verif
