/-
Lemmas about reading files.
-/
import Verif.File.Lemmas

namespace Verif.File

/-- The values of an array in row major order. -/
def valuesOf (shape : List ℕ) (G : ℕ → ℝ) : List ℝ := (List.range shape.prod).map G

theorem flat_eq {ds : Dataset} {G : ℕ → ℝ}
    (h : ∀ idx, Valid ds.shape idx → ds.cell idx = G (ravel ds.shape idx)) :
    ds.flat = valuesOf ds.shape G := by
  unfold Dataset.flat valuesOf
  apply List.map_congr_left
  intro k hk
  have hk' := List.mem_range.mp hk
  rw [h _ (unravel_valid _ k hk'), ravel_unravel _ k hk']

theorem get_of_mem {α : Type} {l : List (String × α)} (hn : (l.map Prod.fst).Nodup)
    {a : String × α} (ha : a ∈ l) : get l a.1 = some a.2 := by
  induction l with
  | nil => cases ha
  | cons b l ih =>
    rw [get_cons]
    simp only [List.map_cons, List.nodup_cons] at hn
    rcases List.mem_cons.mp ha with rfl | ha
    · simp
    · have hne : b.1 ≠ a.1 := fun e => hn.1 (by rw [e]; exact List.mem_map_of_mem ha)
      rw [if_neg hne]
      exact ih hn.2 ha

/-- An entry of a file is the group of one of the steps. -/
def Entry (names : List String) (shape : String → List ℕ) (ks : List ℕ) (t : ℕ → ℝ)
    (G : ℕ → String → ℕ → ℝ) (e : ℕ → Option ℝ) (a : String × Group) : Prop :=
  ∃ k ∈ ks, a.1 = toString k ∧ Holds names shape a.2 (t k) (G k) (e k)

section

variable {names : List String} {shape : String → List ℕ} {f : File} {ks : List ℕ} {t : ℕ → ℝ}
  {G : ℕ → String → ℕ → ℝ} {e : ℕ → Option ℝ}

theorem FileHolds.entry (h : FileHolds names shape f ks t G e) (hn : ks.Nodup)
    {a : String × Group} (ha : a ∈ f) : Entry names shape ks t G e a := by
  have hk : a.1 ∈ ks.map toString := by rw [← h.keys]; exact List.mem_map_of_mem ha
  obtain ⟨k, hk, e1⟩ := List.mem_map.mp hk
  obtain ⟨g, hg, hH⟩ := h.groups k hk
  have := get_of_mem (by rw [h.keys]; exact map_toString_nodup hn) ha
  rw [← e1, hg] at this
  exact ⟨k, hk, e1.symm, Option.some.inj this ▸ hH⟩

theorem sorted_perm {α : Type} (l : List (String × α)) : (sortedItems l).Perm l :=
  List.mergeSort_perm _ _

/-- The steps in the order in which they are read. -/
theorem sorted_keys (h : FileHolds names shape f ks t G e) :
    ((sortedItems f).map fun a => parseKey a.1).Perm ks := by
  have h1 : ((sortedItems f).map fun a => parseKey a.1).Perm (f.map fun a => parseKey a.1) :=
    (sorted_perm f).map _
  have h2 : (f.map fun a => parseKey a.1) = ks := by
    have : (f.map fun a => parseKey a.1) = (f.map Prod.fst).map parseKey := by
      rw [List.map_map]; rfl
    rw [this, h.keys, List.map_map]
    conv_rhs => rw [← List.map_id ks]
    apply List.map_congr_left
    intro k _
    exact parseKey_toString k
  rw [h2] at h1
  exact h1

theorem zero_le_digits (k : ℕ) : "0".toList ≤ (toString k).toList := by
  rw [Nat.toString_eq_repr, Nat.toList_repr]
  have hne := Nat.toDigits_ne_nil (n := k) (b := 10)
  have hdig : ∀ c ∈ Nat.toDigits 10 k, c.isDigit = true := fun c hc =>
    Nat.isDigit_of_mem_toDigits (by omega) (by omega) hc
  cases hd : Nat.toDigits 10 k with
  | nil => exact absurd hd hne
  | cons c cs =>
    have hc := hdig c (by rw [hd]; simp)
    have h0 : '0' ≤ c := by
      simp only [Char.isDigit, Bool.and_eq_true, decide_eq_true_eq] at hc
      exact hc.1
    change ['0'] ≤ c :: cs
    rw [List.cons_le_cons_iff]
    by_cases hlt : '0' < c
    · exact Or.inl hlt
    · exact Or.inr ⟨Char.le_antisymm h0 (Char.not_lt.mp hlt), List.nil_le _⟩

/-- The group of step 0 is read first. -/
theorem sorted_head (h : FileHolds names shape f ks t G e) (h0 : 0 ∈ ks) :
    ∃ a l, sortedItems f = a :: l ∧ parseKey a.1 = 0 := by
  have hp : (sortedItems f).Pairwise fun a b => decide (a.1.toList ≤ b.1.toList) = true :=
    List.pairwise_mergeSort
      (fun a b c hab hbc => by
        simp only [decide_eq_true_eq] at hab hbc ⊢
        exact List.le_trans hab hbc)
      (fun a b => by
        simp only [Bool.or_eq_true, decide_eq_true_eq]
        exact List.le_total _ _) f
  have hmem : "0" ∈ (sortedItems f).map Prod.fst := by
    have : (toString 0 : String) ∈ f.map Prod.fst := by
      rw [h.keys]; exact List.mem_map_of_mem h0
    exact (((sorted_perm f).map Prod.fst).mem_iff).mpr this
  cases hs : sortedItems f with
  | nil => rw [hs] at hmem; simp at hmem
  | cons a l =>
    refine ⟨a, l, rfl, ?_⟩
    rw [hs] at hp hmem
    have ha : a.1 = "0" := by
      rcases List.mem_cons.mp hmem with h1 | h1
      · exact h1.symm
      · obtain ⟨b, hb, hb1⟩ := List.mem_map.mp h1
        have hle := (List.pairwise_cons.mp hp).1 b hb
        simp only [decide_eq_true_eq, hb1] at hle
        have hkey : a.1 ∈ f.map Prod.fst :=
          List.mem_map_of_mem ((sorted_perm f).mem_iff.mp (by rw [hs]; simp))
        rw [h.keys] at hkey
        obtain ⟨k, _, hk⟩ := List.mem_map.mp hkey
        have hge := zero_le_digits k
        rw [hk] at hge
        exact String.toList_inj.mp (List.le_antisymm hle hge)
    rw [ha]
    exact parseKey_toString 0

theorem Entry.parse {a : String × Group} (h : Entry names shape ks t G e a) :
    parseKey a.1 ∈ ks ∧
      Holds names shape a.2 (t (parseKey a.1)) (G (parseKey a.1)) (e (parseKey a.1)) := by
  obtain ⟨k, hk, h1, h2⟩ := h
  rw [h1, parseKey_toString]
  exact ⟨hk, h2⟩

theorem fold_times : ∀ (l : List (String × Group)) (d : Dict ℝ),
    (∀ a ∈ l, Entry names shape ks t G e a) →
    ∃ d', l.foldlM (fun d e => do
        let t ← getE e.2 "time"
        .ok (d.set (parseKey e.1) (t.cell [0]))) d = (.ok d' : Except Err (Dict ℝ)) ∧
      ∀ k, d' k = if k ∈ l.map (fun a => parseKey a.1) then some (t k) else d k
  | [], d, _ => ⟨d, rfl, by simp⟩
  | a :: l, d, h => by
    obtain ⟨_, hH⟩ := (h a (by simp)).parse
    obtain ⟨ds, hds, _, hc⟩ := hH.time
    obtain ⟨d', e', hd'⟩ := fold_times l (d.set (parseKey a.1) (ds.cell [0]))
      fun b hb => h b (List.mem_cons_of_mem _ hb)
    refine ⟨d', ?_, fun k => ?_⟩
    · rw [List.foldlM_cons]
      unfold getE
      rw [hds]
      exact e'
    · rw [hd' k, List.map_cons]
      by_cases hk : k ∈ l.map fun a => parseKey a.1
      · rw [if_pos hk, if_pos (List.mem_cons_of_mem _ hk)]
      · rw [if_neg hk]
        unfold Dict.set
        by_cases hk' : k = parseKey a.1
        · subst hk'
          rw [if_pos rfl, if_pos (by simp), hc]
        · rw [if_neg hk', if_neg (by simp only [List.mem_cons, not_or]; exact ⟨hk', hk⟩)]

theorem readTimes_ok (h : FileHolds names shape f ks t G e) (hn : ks.Nodup) :
    ∃ d, readTimes f = .ok d ∧ ∀ k, d k = if k ∈ ks then some (t k) else none := by
  obtain ⟨d, h1, h2⟩ := fold_times (names := names) (shape := shape) (ks := ks) (t := t) (G := G)
    (e := e) (sortedItems f) (fun _ => none)
    fun a ha => h.entry hn ((sorted_perm f).mem_iff.mp ha)
  refine ⟨d, h1, fun k => ?_⟩
  rw [h2 k]
  simp only [(sorted_keys h).mem_iff]

/-- What `read_hdf5_file` compares the values of step `k` with, given a list of initial values. -/
def expected (sol : Solution) (count i : ℕ) (t0 tk : ℝ) (x0 : List ℝ) : Option (List ℝ) :=
  if count > 1 then (sol.several tk (List.replicate count x0) t0)[i]?
  else some (sol.single tk x0 t0)

theorem fold_quantity {sol : Solution} {count i : ℕ} {nm : String} (hnm : nm ∈ names)
    (hs : shape nm ≠ []) (h0 : 0 ∈ ks) {time : Dict ℝ} (ht : ∀ k ∈ ks, time k = some (t k))
    {ex : ℕ → List ℝ}
    (hex : ∀ k ∈ ks, expected sol count i (t 0) (t k) (valuesOf (shape nm) (G 0 nm))
      = some (ex k)) :
    ∀ (l : List (String × Group)) (acc : Dict (List ℝ) × Dict (List ℝ)),
    (∀ a ∈ l, Entry names shape ks t G e a) →
    (acc.2 0 = some (valuesOf (shape nm) (G 0 nm)) ∨ ∀ a ∈ l.head?, parseKey a.1 = 0) →
    ∃ acc', l.foldlM (readOne sol count i nm time) acc = .ok acc' ∧
      (∀ k, acc'.1 k = if k ∈ l.map (fun a => parseKey a.1) then
        some (absDiff (ex k) (valuesOf (shape nm) (G k nm))) else acc.1 k) ∧
      ∀ k, acc'.2 k = if k ∈ l.map (fun a => parseKey a.1) then
        some (valuesOf (shape nm) (G k nm)) else acc.2 k
  | [], acc, _, _ => ⟨acc, rfl, by simp, by simp⟩
  | a :: l, acc, h, hacc => by
    obtain ⟨hk, hH⟩ := (h a (by simp)).parse
    obtain ⟨ds, hds, hsh, hc⟩ := hH.values nm hnm
    have hflat : ds.flat = valuesOf (shape nm) (G (parseKey a.1) nm) := by
      rw [← hsh]
      exact flat_eq (by rw [hsh]; exact hc)
    have hr0 : (acc.2.set (parseKey a.1) ds.flat) 0 = some (valuesOf (shape nm) (G 0 nm)) := by
      unfold Dict.set
      by_cases hz : 0 = parseKey a.1
      · rw [if_pos hz, hflat, ← hz]
      · rw [if_neg hz]
        rcases hacc with hacc | hacc
        · exact hacc
        · exact absurd (hacc a (by simp)).symm hz
    have hstep : readOne sol count i nm time acc a = .ok
        (acc.1.set (parseKey a.1) (absDiff (ex (parseKey a.1)) ds.flat),
          acc.2.set (parseKey a.1) ds.flat) := by
      unfold readOne getE
      rw [hds]
      simp only [bind, Except.bind]
      rw [if_neg (by rw [hsh]; exact hs)]
      unfold Dict.at'
      rw [hr0, ht _ hk, ht 0 h0]
      simp only
      have := hex _ hk
      unfold expected at this
      by_cases hcount : count > 1
      · rw [if_pos hcount] at this ⊢
        rw [this]
      · rw [if_neg hcount] at this ⊢
        rw [Option.some.inj this]
    obtain ⟨acc', e', h1, h2⟩ := fold_quantity hnm hs h0 ht hex l
      (acc.1.set (parseKey a.1) (absDiff (ex (parseKey a.1)) ds.flat),
        acc.2.set (parseKey a.1) ds.flat)
      (fun b hb => h b (List.mem_cons_of_mem _ hb)) (Or.inl hr0)
    refine ⟨acc', by rw [List.foldlM_cons, hstep]; exact e', fun k => ?_, fun k => ?_⟩
    · rw [h1 k, List.map_cons]
      by_cases hkl : k ∈ l.map fun a => parseKey a.1
      · rw [if_pos hkl, if_pos (List.mem_cons_of_mem _ hkl)]
      · rw [if_neg hkl]
        simp only [Dict.set]
        by_cases hk' : k = parseKey a.1
        · subst hk'
          rw [if_pos rfl, if_pos (by simp), hflat]
        · rw [if_neg hk', if_neg (by simp only [List.mem_cons, not_or]; exact ⟨hk', hkl⟩)]
    · rw [h2 k, List.map_cons]
      by_cases hkl : k ∈ l.map fun a => parseKey a.1
      · rw [if_pos hkl, if_pos (List.mem_cons_of_mem _ hkl)]
      · rw [if_neg hkl]
        simp only [Dict.set]
        by_cases hk' : k = parseKey a.1
        · subst hk'
          rw [if_pos rfl, if_pos (by simp), hflat]
        · rw [if_neg hk', if_neg (by simp only [List.mem_cons, not_or]; exact ⟨hk', hkl⟩)]

theorem readQuantity_ok (h : FileHolds names shape f ks t G e) (hn : ks.Nodup) (h0 : 0 ∈ ks)
    {sol : Solution} {count i : ℕ} {nm : String} (hnm : nm ∈ names) (hs : shape nm ≠ [])
    {time : Dict ℝ} (ht : ∀ k ∈ ks, time k = some (t k)) {ex : ℕ → List ℝ}
    (hex : ∀ k ∈ ks, expected sol count i (t 0) (t k) (valuesOf (shape nm) (G 0 nm))
      = some (ex k)) :
    ∃ er res, readQuantity sol count f time i nm = .ok (er, res) ∧
      (∀ k, er k = if k ∈ ks then some (absDiff (ex k) (valuesOf (shape nm) (G k nm)))
        else none) ∧
      ∀ k, res k = if k ∈ ks then some (valuesOf (shape nm) (G k nm)) else none := by
  obtain ⟨a, l, hal, ha⟩ := sorted_head h h0
  obtain ⟨acc, e', h1, h2⟩ := fold_quantity (e := e) hnm hs h0 ht hex (sortedItems f)
    (fun _ => none, fun _ => none) (fun a ha => h.entry hn ((sorted_perm f).mem_iff.mp ha))
    (Or.inr (by rw [hal]; simpa using ha))
  refine ⟨acc.1, acc.2, e', fun k => ?_, fun k => ?_⟩
  · rw [h1 k]
    simp only [(sorted_keys h).mem_iff]
  · rw [h2 k]
    simp only [(sorted_keys h).mem_iff]

theorem forall₂_right {α β : Type} {R : α → β → Prop} {l : List α} {l' : List β}
    (h : List.Forall₂ R l l') {i : ℕ} {a : α} (hi : l[i]? = some a) :
    ∃ b, l'[i]? = some b ∧ R a b := by
  induction h generalizing i with
  | nil => simp at hi
  | cons hab _ ih =>
    cases i with
    | zero =>
      simp only [List.getElem?_cons_zero, Option.some.injEq] at hi
      subst hi
      exact ⟨_, rfl, hab⟩
    | succ i => exact ih (by simpa using hi)

theorem mapM_ok_of {α β : Type} {g : α → Except Err β} {R : α → β → Prop} :
    ∀ (l : List α), (∀ a ∈ l, ∃ b, g a = .ok b ∧ R a b) →
      ∃ bs, l.mapM g = .ok bs ∧ List.Forall₂ R l bs
  | [], _ => ⟨[], rfl, .nil⟩
  | a :: l, h => by
    obtain ⟨b, hb, hR⟩ := h a (by simp)
    obtain ⟨bs, hbs, hRs⟩ := mapM_ok_of l fun c hc => h c (List.mem_cons_of_mem _ hc)
    refine ⟨b :: bs, ?_, .cons hR hRs⟩
    rw [List.mapM_cons, hb]
    simp only [bind, Except.bind]
    rw [hbs]
    rfl

end

end Verif.File
