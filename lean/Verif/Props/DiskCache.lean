import Verif.Spec.DiskCache
import Mathlib.Data.List.Basic
import Mathlib.Logic.Function.Basic

/-!
# C105: trajectory files on disk, under all schedules and crash points
-/
namespace Verif
open List
variable {α : Type} {c : Codec α} {home f : String}

theorem dsStep_other {k : DsCall α} (hk : k.args.filename home ≠ f) (d : Disk) (pc : DsPc α) : (dsStep c home k d pc).1 f = d f := by
  unfold dsStep
  split
  · split_ifs
    · rfl
    · split <;> rfl
  · split <;> rfl
  · exact Function.update_of_ne (Ne.symm hk) _ _
  · split
    · exact Function.update_of_ne (Ne.symm hk) _ _
    · rfl
  · rfl
  · rfl

theorem getElem?_set_cases {β : Type} {l : List β} {i j : ℕ} {a b : β} (h : (l.set i a)[j]? = some b) : (i = j ∧ b = a) ∨ (i ≠ j ∧ l[j]? = some b) := by
  by_cases hij : i = j
  · subst hij
    rw [getElem?_set_self'] at h
    cases h' : l[i]? with
    | none => rw [h'] at h; cases h
    | some x => rw [h'] at h; exact .inl ⟨rfl, (Option.some.inj h).symm⟩
  · rw [getElem?_set_ne hij] at h
    exact .inr ⟨hij, h⟩

/-- What is known while nobody writes the file. -/
structure Quiet (c : Codec α) (home f : String) (b : List ℕ) (s₀ s : DsSys α) : Prop where
  file : s.disk f = some b
  procs : ∀ (i : ℕ) k pc, s.procs[i]? = some (k, pc) → k.For home f →
    pc = .killed ∨ ((pc = .start ∨ pc = .loading) ∧ k.regen = false) ∨ ∃ r, pc = .done r ∧ (r = c.dec b ∨ s₀.procs[i]? = some (k, pc))

theorem Quiet.next {b : List ℕ} {s₀ s : DsSys α} (h : Quiet c home f b s₀ s) (e : DsEvent α)
    (he : ∀ k, e = .spawn k → k.For home f → k.regen = false) : Quiet c home f b s₀ (s.next c home e) := by
  cases e with
  | spawn k =>
    refine ⟨h.file, fun i k' pc hi hf => ?_⟩
    change (s.procs ++ [(k, .start)])[i]? = _ at hi
    rw [getElem?_append] at hi
    split_ifs at hi with hl
    · exact h.procs i k' pc hi hf
    · rw [getElem?_singleton] at hi
      split_ifs at hi
      cases hi
      exact .inr (.inl ⟨.inl rfl, he k rfl hf⟩)
  | step i =>
    unfold DsSys.next
    dsimp only
    split
    · exact h
    · rename_i k pc hi
      by_cases hk : k.For home f
      · have key : ∀ p, dsStep c home k s.disk pc = p → (∃ d, p = (s.disk, d) ∧ (d = .killed ∨ ((d = .start ∨ d = .loading) ∧ k.regen = false) ∨
            ∃ r, d = .done r ∧ (r = c.dec b ∨ s₀.procs[i]? = some (k, d)))) := by
          rintro p rfl
          rcases h.procs i k pc hi hk with rfl | ⟨rfl | rfl, hr⟩ | ⟨r, rfl, hr⟩
          · exact ⟨_, rfl, .inl rfl⟩
          · refine ⟨.loading, ?_, .inr (.inl ⟨.inr rfl, hr⟩)⟩
            rw [dsStep, if_pos (by rw [show k.args.filename home = f from hk, h.file, hr]; rfl)]
          · refine ⟨.done (c.dec b), ?_, .inr (.inr ⟨_, rfl, .inl rfl⟩)⟩
            rw [dsStep, show k.args.filename home = f from hk, h.file]
          · exact ⟨_, rfl, .inr (.inr ⟨r, rfl, hr⟩)⟩
        obtain ⟨d, hd, hd'⟩ := key _ rfl
        rw [hd]
        refine ⟨h.file, fun j k' pc' hj hf => ?_⟩
        rcases getElem?_set_cases hj with ⟨rfl, h2⟩ | ⟨-, h2⟩
        · cases h2
          exact hd'
        · exact h.procs j k' pc' h2 hf
      · refine ⟨(dsStep_other hk _ _).trans h.file, fun j k' pc' hj hf => ?_⟩
        rcases getElem?_set_cases hj with ⟨rfl, h2⟩ | ⟨-, h2⟩
        · cases h2
          exact absurd hf hk
        · exact h.procs j k' pc' h2 hf
  | kill i =>
    unfold DsSys.next
    dsimp only
    split
    · exact h
    · rename_i k pc _ hi
      refine ⟨h.file, fun j k' pc' hj hf => ?_⟩
      rcases getElem?_set_cases hj with ⟨rfl, h2⟩ | ⟨-, h2⟩
      · cases h2
        exact .inl rfl
      · exact h.procs j k' pc' h2 hf
    · exact h

theorem Quiet.run {b : List ℕ} {s₀ s : DsSys α} (h : Quiet c home f b s₀ s) (l : List (DsEvent α))
    (hl : ∀ k, .spawn k ∈ l → k.For home f → k.regen = false) : Quiet c home f b s₀ (s.run c home l) := by
  induction l generalizing s with
  | nil => exact h
  | cons e l ih => exact ih (h.next e fun k hk hf => hl k (hk ▸ mem_cons_self) hf) fun k hk hf => hl k (mem_cons_of_mem _ hk) hf

/-- **C105.** While a file exists, nobody is writing it and nobody asks for regeneration, every construction that uses it and finishes returns what
`torch.load` makes of the bytes, whatever the processes do, in whatever order, and wherever they are killed; and the bytes do not change. -/
theorem C105_content {b : List ℕ} {s : DsSys α} (hd : s.disk f = some b) (hp : ∀ p ∈ s.procs, p.1.For home f → p.2.Over) (l : List (DsEvent α))
    (hl : ∀ k, .spawn k ∈ l → k.For home f → k.regen = false) :
    (s.run c home l).disk f = some b ∧ ∀ (i : ℕ) k r, (s.run c home l).procs[i]? = some (k, .done r) → k.For home f →
      s.procs[i]? ≠ some (k, .done r) → r = c.dec b := by
  have h0 : Quiet c home f b s s := ⟨hd, fun i k pc hi hf => by
    have := hp _ (mem_of_getElem? hi) hf
    cases pc with
    | done r => exact .inr (.inr ⟨r, rfl, .inr hi⟩)
    | killed => exact .inl rfl
    | _ => exact absurd this id⟩
  have h := h0.run l hl
  refine ⟨h.file, fun i k r hi hf hn => ?_⟩
  rcases h.procs i k _ hi hf with h1 | ⟨h1 | h1, -⟩ | ⟨r', h1, h2 | h2⟩
  · cases h1
  · cases h1
  · cases h1
  · cases h1; exact h2
  · exact absurd h2 hn

/-- What is known while construction `i` is the only one that uses the file: it has taken `m` steps. -/
structure Sole (c : Codec α) (home f : String) (i : ℕ) (k : DsCall α) (x : α) (old : Option (List ℕ)) (m : ℕ) (s : DsSys α) : Prop where
  others : ∀ (j : ℕ) k' pc, s.procs[j]? = some (k', pc) → k'.For home f → j ≠ i → pc.Over
  file : s.disk f = if m < 2 then old else some ((c.enc x).take (m - 2))
  pc : s.procs[i]? = some (k, if m = 0 then .start else if m = 1 then .generated x else
    if m < (c.enc x).length + 3 then .writing x (m - 2) else .done (.ok x))

theorem writeByte_take (l : List ℕ) (m v : ℕ) (hv : l[m]? = some v) : writeByte (l.take m) m v = l.take (m + 1) := by
  have hm : m < l.length := by
    by_contra h
    rw [getElem?_eq_none (by omega)] at hv
    cases hv
  have hl : (l.take m).length = m := by rw [length_take]; omega
  rw [writeByte, if_neg (by rw [hl]; exact lt_irrefl _), hl, Nat.sub_self, replicate_zero, append_nil, take_succ, hv]
  rfl

theorem over_step {k : DsCall α} {d : Disk} {pc : DsPc α} (h : pc.Over) : dsStep c home k d pc = (d, pc) := by
  cases pc with
  | done r => rfl
  | killed => rfl
  | _ => exact absurd h id

theorem Sole.next {i m : ℕ} {k : DsCall α} {x : α} {old : Option (List ℕ)} {s : DsSys α} (h : Sole c home f i k x old m s) (hk : k.For home f)
    (hx : k.gen = .ok x) (ho : old = none ∨ k.regen = true) (e : DsEvent α) (he : ∀ k', e = .spawn k' → ¬ k'.For home f) (hki : e ≠ .kill i) :
    Sole c home f i k x old (if e.isStep i then m + 1 else m) (s.next c home e) := by
  have hil : i < s.procs.length := by
    by_contra hc
    have := h.pc
    rw [getElem?_eq_none (by omega)] at this
    cases this
  cases e with
  | spawn k' =>
    refine ⟨fun j k'' pc hj hf hij => ?_, h.file, ?_⟩
    · change (s.procs ++ [(k', .start)])[j]? = _ at hj
      rw [getElem?_append] at hj
      split_ifs at hj with hl
      · exact h.others j k'' pc hj hf hij
      · rw [getElem?_singleton] at hj
        split_ifs at hj
        cases hj
        exact absurd hf (he k' rfl)
    · show (s.procs ++ [(k', .start)])[i]? = _
      rw [getElem?_append, if_pos hil]
      exact h.pc
  | kill j =>
    have hji : j ≠ i := fun e => hki (by rw [e])
    show Sole c home f i k x old m _
    unfold DsSys.next
    dsimp only
    split
    · exact h
    · refine ⟨fun l k'' pc hl hf hil' => ?_, h.file, ?_⟩
      · rcases getElem?_set_cases hl with ⟨rfl, h2⟩ | ⟨-, h2⟩
        · cases h2
          trivial
        · exact h.others l k'' pc h2 hf hil'
      · show (s.procs.set j _)[i]? = _
        rw [getElem?_set_ne hji]
        exact h.pc
    · exact h
  | step j =>
    by_cases hji : i = j
    · subst hji
      rw [show (DsEvent.step i : DsEvent α).isStep i = true by simp [DsEvent.isStep], if_pos rfl]
      obtain ⟨pc, hpc⟩ : ∃ pc, s.procs[i]? = some (k, pc) := ⟨_, h.pc⟩
      have hnext : s.next c home (.step i) = ⟨(dsStep c home k s.disk pc).1, s.procs.set i (k, (dsStep c home k s.disk pc).2)⟩ := by
        rw [DsSys.next, hpc]
      rw [hnext]
      have hpc' := h.pc
      rw [hpc] at hpc'
      have epc := (Prod.mk.inj (Option.some.inj hpc')).2
      have hothers : ∀ (p : DsPc α) (l : ℕ) k' pc', (s.procs.set i (k, p))[l]? = some (k', pc') → k'.For home f → l ≠ i → pc'.Over := by
        intro p l k' pc' hl hf hli
        rw [getElem?_set_ne (Ne.symm hli)] at hl
        exact h.others l k' pc' hl hf hli
      have hset : ∀ p : DsPc α, (s.procs.set i (k, p))[i]? = some (k, p) := fun p => by rw [getElem?_set_self hil]
      have hff : k.args.filename home = f := hk
      rcases Nat.lt_or_ge m 2 with h2 | h2
      · rcases (by omega : m = 0 ∨ m = 1) with rfl | rfl
        · rw [if_pos rfl] at epc
          subst epc
          have hst : dsStep c home k s.disk .start = (s.disk, .generated x) := by
            have hfile := h.file
            rw [if_pos h2] at hfile
            rw [dsStep, hff, hfile, if_neg (by rcases ho with rfl | hr <;> simp [*]), hx]
          rw [hst]
          exact ⟨hothers _, h.file, hset _⟩
        · rw [if_neg one_ne_zero, if_pos rfl] at epc
          subst epc
          refine ⟨hothers _, ?_, ?_⟩
          · show Function.update s.disk _ _ f = _
            rw [hff, Function.update_self, if_neg (by omega)]
            rfl
          · rw [hset, if_neg (by omega), if_neg (by omega), if_pos (by omega)]
            rfl
      · rw [if_neg (by omega), if_neg (by omega)] at epc
        have hfile := h.file
        rw [if_neg (by omega)] at hfile
        by_cases h3 : m < (c.enc x).length + 3
        · rw [if_pos h3] at epc
          subst epc
          by_cases h4 : m - 2 < (c.enc x).length
          · have hv : (c.enc x)[m - 2]? = some (c.enc x)[m - 2] := getElem?_eq_getElem h4
            have hst : dsStep c home k s.disk (.writing x (m - 2)) =
                (Function.update s.disk f (some (writeByte ((c.enc x).take (m - 2)) (m - 2) (c.enc x)[m - 2])), .writing x (m - 2 + 1)) := by
              rw [dsStep, hv, hff, hfile]
              rfl
            rw [hst]
            refine ⟨hothers _, ?_, ?_⟩
            · show Function.update s.disk _ _ f = _
              rw [Function.update_self, if_neg (by omega), writeByte_take _ _ _ hv]
              congr 2
              omega
            · rw [hset, if_neg (by omega), if_neg (by omega), if_pos (by omega), show m + 1 - 2 = m - 2 + 1 by omega]
          · have hst : dsStep c home k s.disk (.writing x (m - 2)) = (s.disk, .done (.ok x)) := by
              rw [dsStep, getElem?_eq_none (by omega)]
            rw [hst]
            refine ⟨hothers _, ?_, ?_⟩
            · show s.disk f = _
              rw [hfile, if_neg (by omega), take_of_length_le (by omega), take_of_length_le (by omega)]
            · rw [hset, if_neg (by omega), if_neg (by omega), if_neg (by omega)]
        · rw [if_neg h3] at epc
          subst epc
          refine ⟨hothers _, ?_, ?_⟩
          · show s.disk f = _
            rw [hfile, if_neg (by omega), take_of_length_le (by omega), take_of_length_le (by omega)]
          · rw [hset, if_neg (by omega), if_neg (by omega), if_neg (by omega)]
            rfl
    · rw [show (DsEvent.step j : DsEvent α).isStep i = false by simp [DsEvent.isStep, hji], if_neg (by simp)]
      unfold DsSys.next
      dsimp only
      split
      · exact h
      · rename_i k' pc hj
        refine ⟨fun l k'' pc' hl hf hli => ?_, ?_, ?_⟩
        · rcases getElem?_set_cases hl with ⟨rfl, h2⟩ | ⟨-, h2⟩
          · cases h2
            have hov := h.others j k' pc hj hf hli
            rw [over_step hov]
            exact hov
          · exact h.others l k'' pc' h2 hf hli
        · by_cases hk' : k'.For home f
          · rw [over_step (h.others j k' pc hj hk' (Ne.symm hji))]
            exact h.file
          · exact (dsStep_other hk' _ _).trans h.file
        · show (s.procs.set j _)[i]? = _
          rw [getElem?_set_ne (Ne.symm hji)]
          exact h.pc

theorem Sole.run {i m : ℕ} {k : DsCall α} {x : α} {old : Option (List ℕ)} {s : DsSys α} (h : Sole c home f i k x old m s) (hk : k.For home f)
    (hx : k.gen = .ok x) (ho : old = none ∨ k.regen = true) (l : List (DsEvent α)) (he : ∀ k', .spawn k' ∈ l → ¬ k'.For home f)
    (hki : .kill i ∉ l) : Sole c home f i k x old (m + dsSteps i l) (s.run c home l) := by
  induction l generalizing s m with
  | nil => exact h
  | cons e l ih =>
    have h1 := h.next hk hx ho e (fun k' hk' => he k' (hk' ▸ mem_cons_self)) fun hc => hki (hc ▸ mem_cons_self)
    have h2 := ih h1 (fun k' hk' => he k' (mem_cons_of_mem _ hk')) fun hc => hki (mem_cons_of_mem _ hc)
    have e1 : m + dsSteps i (e :: l) = (if e.isStep i then m + 1 else m) + dsSteps i l := by
      unfold dsSteps
      rw [filter_cons]
      split_ifs
      · rw [length_cons]; omega
      · rfl
    rw [e1]
    exact h2

theorem Sole.spawn {s : DsSys α} {k : DsCall α} (x : α) (hp : ∀ p ∈ s.procs, p.1.For home f → p.2.Over) :
    Sole c home f s.procs.length k x (s.disk f) 0 (s.next c home (.spawn k)) := by
  refine ⟨fun j k' pc hj hf hne => ?_, by rw [if_pos two_pos]; rfl, ?_⟩
  · change (s.procs ++ [(k, .start)])[j]? = _ at hj
    rw [getElem?_append] at hj
    split_ifs at hj with hl
    · exact hp _ (mem_of_getElem? hj) hf
    · rw [getElem?_singleton] at hj
      split_ifs at hj
      omega
  · show (s.procs ++ [(k, .start)])[s.procs.length]? = _
    rw [getElem?_append, if_neg (lt_irrefl _), Nat.sub_self]
    rfl

/-- **C105.** A construction that has to generate its data (no file yet, or `regen`), is not killed, and has the file to itself, returns the data it
has generated and leaves them in the file, in every schedule that lets it take enough steps. -/
theorem C105_created {s : DsSys α} (hp : ∀ p ∈ s.procs, p.1.For home f → p.2.Over) {k : DsCall α} (hk : k.For home f) {x : α} (hx : k.gen = .ok x)
    (ho : s.disk f = none ∨ k.regen = true) (l : List (DsEvent α)) (he : ∀ k', .spawn k' ∈ l → ¬ k'.For home f) (hki : .kill s.procs.length ∉ l)
    (hn : (c.enc x).length + 3 ≤ dsSteps s.procs.length l) :
    ((s.run c home (.spawn k :: l)).procs[s.procs.length]? = some (k, .done (.ok x))) ∧ (s.run c home (.spawn k :: l)).disk f = some (c.enc x) ∧
      ∀ p ∈ (s.run c home (.spawn k :: l)).procs, p.1.For home f → p.2.Over := by
  have h := (Sole.spawn (c := c) (k := k) x hp).run hk hx ho l he hki
  rw [Nat.zero_add] at h
  have hpc := h.pc
  rw [if_neg (by omega), if_neg (by omega), if_neg (by omega)] at hpc
  refine ⟨hpc, ?_, fun p hp' hf => ?_⟩
  · refine h.file.trans ?_
    rw [if_neg (by omega), take_of_length_le (by omega)]
  · obtain ⟨j, hj⟩ := mem_iff_getElem?.1 hp'
    by_cases hji : j = s.procs.length
    · have e := hj.symm.trans (hji ▸ hpc)
      rw [Option.some.inj e]
      trivial
    · exact h.others j p.1 p.2 hj hf hji

/-- **C105, the same data.** Once a construction has returned, every later construction with the same file and without `regen` that finishes returns the
same data, in every schedule, however many other constructions run at the same time and wherever they are killed. -/
theorem C105_same_partial (hc : c.OK) {s : DsSys α} (hp : ∀ p ∈ s.procs, p.1.For home f → p.2.Over) {k : DsCall α} (hk : k.For home f) {x : α}
    (hx : k.gen = .ok x) (ho : s.disk f = none ∨ k.regen = true) (l : List (DsEvent α)) (he : ∀ k', .spawn k' ∈ l → ¬ k'.For home f)
    (hki : .kill s.procs.length ∉ l) (hn : (c.enc x).length + 3 ≤ dsSteps s.procs.length l) (l' : List (DsEvent α))
    (hl : ∀ k', .spawn k' ∈ l' → k'.For home f → k'.regen = false) (i : ℕ) (k' : DsCall α) (r : Py α)
    (hi : ((s.run c home (.spawn k :: l)).run c home l').procs[i]? = some (k', .done r)) (hf : k'.For home f)
    (hnew : (s.run c home (.spawn k :: l)).procs[i]? ≠ some (k', .done r)) : r = .ok x := by
  obtain ⟨-, h2, h3⟩ := C105_created (c := c) hp hk hx ho l he hki hn
  rw [(C105_content h2 h3 l' hl).2 i k' r hi hf hnew, hc.round]

/-- **C105, after a crash.** If the construction that creates the file is killed inside `torch.save` (after opening the file and before the last byte),
then every later construction with the same file and without `regen` that finishes raises. -/
theorem C105_torn (hc : c.OK) {s : DsSys α} (hp : ∀ p ∈ s.procs, p.1.For home f → p.2.Over) {k : DsCall α} (hk : k.For home f) {x : α}
    (hx : k.gen = .ok x) (ho : s.disk f = none ∨ k.regen = true) (l : List (DsEvent α)) (he : ∀ k', .spawn k' ∈ l → ¬ k'.For home f)
    (hki : .kill s.procs.length ∉ l) (hn : 2 ≤ dsSteps s.procs.length l) (hn' : dsSteps s.procs.length l < (c.enc x).length + 2)
    (l' : List (DsEvent α)) (hl : ∀ k', .spawn k' ∈ l' → k'.For home f → k'.regen = false) (i : ℕ) (k' : DsCall α) (r : Py α)
    (hi : ((s.run c home (.spawn k :: l ++ [.kill s.procs.length])).run c home l').procs[i]? = some (k', .done r)) (hf : k'.For home f)
    (hnew : (s.run c home (.spawn k :: l ++ [.kill s.procs.length])).procs[i]? ≠ some (k', .done r)) : ∃ e, r = .error e := by
  have h := (Sole.spawn (c := c) (k := k) x hp).run hk hx ho l he hki
  rw [Nat.zero_add] at h
  have hs : s.run c home (.spawn k :: l ++ [.kill s.procs.length]) =
      ((s.next c home (.spawn k)).run c home l).next c home (.kill s.procs.length) := by
    rw [DsSys.run, foldl_append]
    rfl
  obtain ⟨s', hs'⟩ : ∃ s', s' = (s.next c home (.spawn k)).run c home l := ⟨_, rfl⟩
  rw [← hs'] at h hs
  have hpc := h.pc
  rw [if_neg (by omega), if_neg (by omega), if_pos (by omega)] at hpc
  have hk2 : s'.next c home (.kill s.procs.length) = { s' with procs := s'.procs.set s.procs.length (k, .killed) } := by
    rw [DsSys.next, hpc]
  rw [hs, hk2] at hi hnew
  have hfile : s'.disk f = some ((c.enc x).take (dsSteps s.procs.length l - 2)) := by
    rw [h.file, if_neg (by omega)]
  have hov : ∀ p ∈ s'.procs.set s.procs.length (k, .killed), p.1.For home f → p.2.Over := by
    intro p hp' hpf
    obtain ⟨j, hj⟩ := mem_iff_getElem?.1 hp'
    rcases getElem?_set_cases hj with ⟨rfl, h2⟩ | ⟨h1, h2⟩
    · rw [h2]
      trivial
    · exact h.others j p.1 p.2 h2 hpf (Ne.symm h1)
  rw [(C105_content (c := c) (s := { s' with procs := s'.procs.set s.procs.length (k, .killed) }) hfile hov l' hl).2 i k' r hi hf hnew]
  exact hc.torn x _ (take_prefix _ _) fun e => by
    have := congrArg List.length e
    rw [length_take] at this
    omega

/-- The file name determines the class name and the formatted arguments, for class names without a slash and arguments without an underscore (numbers). -/
theorem C105_filename {a b : DsArgs} (ha : '/' ∉ a.cls.toList) (hb : '/' ∉ b.cls.toList)
    (na : ∀ s ∈ [a.n, a.chunk, a.dt, a.time], NoUnderscore s) (nb : ∀ s ∈ [b.n, b.chunk, b.dt, b.time], NoUnderscore s)
    (h : a.filename home = b.filename home) : a = b := by
  have split : ∀ (sep : Char) (u v p q : List Char), sep ∉ u → sep ∉ v → u ++ sep :: p = v ++ sep :: q → u = v ∧ p = q := by
    intro sep u
    induction u with
    | nil =>
      intro v p q _ hv h
      cases v with
      | nil => exact ⟨rfl, (cons.inj h).2⟩
      | cons y v => exact absurd (mem_cons.2 (.inl (cons.inj h).1)) hv
    | cons x u ih =>
      intro v p q hu hv h
      cases v with
      | nil => exact absurd (mem_cons.2 (.inl (cons.inj h).1.symm)) hu
      | cons y v =>
        obtain ⟨h1, h2⟩ := ih v p q (fun h' => hu (mem_cons_of_mem _ h')) (fun h' => hv (mem_cons_of_mem _ h')) (cons.inj h).2
        exact ⟨by rw [(cons.inj h).1, h1], h2⟩
  have h0 := congrArg String.toList h
  simp only [DsArgs.filename, String.toList_append, append_assoc] at h0
  have h1 := append_cancel_left (append_cancel_left h0)
  obtain ⟨e1, h2⟩ := split '/' _ _ _ _ ha hb h1
  have h3 := append_cancel_left (as := "trajectories_".toList) h2
  obtain ⟨e2, h4⟩ := split '_' a.n.toList b.n.toList _ _ (na a.n (by simp)) (nb b.n (by simp)) h3
  obtain ⟨e3, h5⟩ := split '_' a.chunk.toList b.chunk.toList _ _ (na a.chunk (by simp)) (nb b.chunk (by simp)) h4
  obtain ⟨e4, h6⟩ := split '_' a.dt.toList b.dt.toList _ _ (na a.dt (by simp)) (nb b.dt (by simp)) h5
  have e5 := append_cancel_right (as := a.time.toList) (cs := b.time.toList) (bs := ".pz".toList) h6
  cases a
  cases b
  simp only [String.toList_inj] at e1 e2 e3 e4 e5
  subst e1 e2 e3 e4 e5
  rfl

/-- A small encoding that meets the contract. -/
def toyCodec : Codec ℕ where
  enc x := [x, 0]
  dec b := match b with
    | [x, 0] => .ok x
    | _ => .error .exception

theorem toyCodec_ok : toyCodec.OK where
  round _ := rfl
  torn x b hb hne := by
    obtain ⟨t, ht⟩ := hb
    change b ++ t = [x, 0] at ht
    match b, ht with
    | [], _ => exact ⟨_, rfl⟩
    | [y], _ => exact ⟨_, rfl⟩
    | [y, z], ht =>
      have : [y, z] = [x, 0] := by
        cases t with
        | nil => simpa using ht
        | cons u t => simp at ht
      exact absurd this hne
    | y :: z :: w :: v, ht => simp at ht

/-- The default arguments of `SHO`. -/
def shoArgs : DsArgs := ⟨"<class 'SHO'>", "100", "5", "0.2", "30"⟩

example : '/' ∉ shoArgs.cls.toList ∧ ∀ s ∈ [shoArgs.n, shoArgs.chunk, shoArgs.dt, shoArgs.time], NoUnderscore s := by
  unfold NoUnderscore
  decide +kernel

/-- **C105 fails after a crash.** A construction that is killed while it saves its file makes the next one, with the same arguments, raise. -/
theorem C105_counterexample_crash : ∃ (c : Codec ℕ) (k k' : DsCall ℕ) (l : List (DsEvent ℕ)) (e : PyErr), c.OK ∧ k.args = k'.args ∧
    k.regen = false ∧ k'.regen = false ∧ k.gen = .ok 7 ∧ k'.gen = .ok 8 ∧ .kill 1 ∉ l ∧
    ((DsSys.run c "" ⟨fun _ => none, []⟩ l).procs[1]? = some (k', .done (.error e))) := by
  refine ⟨toyCodec, ⟨shoArgs, false, .ok 7⟩, ⟨shoArgs, false, .ok 8⟩,
    [.spawn ⟨shoArgs, false, .ok 7⟩, .step 0, .step 0, .step 0, .kill 0, .spawn ⟨shoArgs, false, .ok 8⟩, .step 1, .step 1], .exception, toyCodec_ok, rfl, rfl, rfl, rfl,
    rfl, by simp, ?_⟩
  simp [DsSys.run, DsSys.next, dsStep, toyCodec, writeByte]

/-- **C105 fails for two constructions at the same time.** Without any crash, of two constructions with the same arguments that start together the
second may find the file unfinished and raise. -/
theorem C105_counterexample_race : ∃ (c : Codec ℕ) (k k' : DsCall ℕ) (l : List (DsEvent ℕ)) (e : PyErr), c.OK ∧ k.args = k'.args ∧
    k.regen = false ∧ k'.regen = false ∧ (∀ i, .kill i ∉ l) ∧
    ((DsSys.run c "" ⟨fun _ => none, []⟩ l).procs[0]? = some (k, .done (.ok 7))) ∧
    ((DsSys.run c "" ⟨fun _ => none, []⟩ l).procs[1]? = some (k', .done (.error e))) := by
  refine ⟨toyCodec, ⟨shoArgs, false, .ok 7⟩, ⟨shoArgs, false, .ok 8⟩,
    [.spawn ⟨shoArgs, false, .ok 7⟩, .spawn ⟨shoArgs, false, .ok 8⟩, .step 0, .step 0, .step 1, .step 1, .step 0, .step 0, .step 0], .exception,
    toyCodec_ok, rfl, rfl, rfl, by simp, ?_, ?_⟩ <;>
  simp [DsSys.run, DsSys.next, dsStep, toyCodec, writeByte]

/-- **C105 fails for classes that share their name.** The file name contains the name of the class, not its Hamiltonian: a redefined class is given the
data of the old one. -/
theorem C105_counterexample_class : ∃ (c : Codec ℕ) (k k' : DsCall ℕ) (l : List (DsEvent ℕ)), c.OK ∧ k.args = k'.args ∧ k.gen = .ok 7 ∧ k'.gen = .ok 8 ∧
    k'.regen = false ∧ (DsSys.run c "" ⟨fun _ => none, []⟩ l).procs[1]? = some (k', .done (.ok 7)) := by
  refine ⟨toyCodec, ⟨shoArgs, false, .ok 7⟩, ⟨shoArgs, false, .ok 8⟩,
    [.spawn ⟨shoArgs, false, .ok 7⟩, .step 0, .step 0, .step 0, .step 0, .step 0, .spawn ⟨shoArgs, false, .ok 8⟩, .step 1, .step 1],
    toyCodec_ok, rfl, rfl, rfl, rfl, ?_⟩
  simp [DsSys.run, DsSys.next, dsStep, toyCodec, writeByte]

/-- The hypotheses of `C105_same_partial` and `C105_torn` are met from an empty disk. -/
example : ∃ (k : DsCall ℕ) (l l' : List (DsEvent ℕ)), k.For "" (shoArgs.filename "") ∧ k.gen = .ok 7 ∧
    (toyCodec.enc 7).length + 3 ≤ dsSteps 0 l ∧ (2 ≤ dsSteps 0 l' ∧ dsSteps 0 l' < (toyCodec.enc 7).length + 2) ∧ .kill 0 ∉ l ∧ .kill 0 ∉ l' :=
  ⟨⟨shoArgs, false, .ok 7⟩, replicate 5 (.step 0), replicate 3 (.step 0), rfl, rfl, by decide, by decide, by simp, by simp⟩

end Verif
