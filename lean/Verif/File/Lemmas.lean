/-
Lemmas about the files written by the callback.
-/
import Verif.File.Slab

namespace Verif.File

open Verif.Metadata

/-! ### Specification -/

/-- A group holds a time, the values of quantities with the given names and shapes (as functions
of the position in row major order), and possibly an error measure, and nothing else. -/
structure Holds (names : List String) (shape : String → List ℕ) (g : Group) (t : ℝ)
    (G : String → ℕ → ℝ) (e : Option ℝ) : Prop where
  keys : g.map Prod.fst = "time" :: names ++ (if e.isSome then ["error_measure"] else [])
  time : ∃ ds, get g "time" = some ds ∧ ds.shape = [1] ∧ ds.cell [0] = t
  values : ∀ nm ∈ names, ∃ ds, get g nm = some ds ∧ ds.shape = shape nm ∧
    ∀ idx, Valid (shape nm) idx → ds.cell idx = G nm (ravel (shape nm) idx)
  error : ∀ x, e = some x →
    ∃ ds, get g "error_measure" = some ds ∧ ds.shape = [1] ∧ ds.cell [0] = x

/-- A file has exactly the groups of the steps `ks`, with times `t`, values `G` and errors `e`. -/
structure FileHolds (names : List String) (shape : String → List ℕ) (f : File) (ks : List ℕ)
    (t : ℕ → ℝ) (G : ℕ → String → ℕ → ℝ) (e : ℕ → Option ℝ) : Prop where
  keys : f.map Prod.fst = ks.map toString
  groups : ∀ k ∈ ks, ∃ g, get f (toString k) = some g ∧ Holds names shape g (t k) (G k) (e k)

/-- The state vectors of the ranks are made of the global values `G`. -/
def Held (ms : List Meta) (xs : List (ℕ → ℝ)) (G : String → ℕ → ℝ) : Prop :=
  List.Forall₂ (fun m x => ∀ q ∈ m.quantities, ∀ k < q.arr.shape.prod,
    x (q.arr.start + k) = G q.name (q.arr.globalStart + k)) ms xs

/-- The metadata of the ranks describe arrays of the given names and shapes, of which the ranks
hold blocks that cover everything. -/
structure Layout (ms : List Meta) (names : List String) (shape : String → List ℕ) : Prop where
  nonempty : ms ≠ []
  sameNames : ∀ m ∈ ms, m.quantities.map Quantity.name = names
  nodup : names.Nodup
  time : "time" ∉ names
  error : "error_measure" ∉ names
  global : ∀ m ∈ ms, ∀ q ∈ m.quantities, q.arr.globalShape = shape q.name
  block : ∀ m ∈ ms, ∀ q ∈ m.quantities, 0 ∉ q.arr.shape → ∃ sl, Block q sl
  size : ∀ m ∈ ms, ∀ q ∈ m.quantities, 0 ∉ q.arr.shape →
    q.arr.globalStop = q.arr.globalStart + q.arr.shape.prod
  cover : ∀ nm ∈ names, ∀ k < (shape nm).prod, ∃ m ∈ ms, ∃ q ∈ m.quantities, q.name = nm ∧
    0 ∉ q.arr.shape ∧ q.arr.globalStart ≤ k ∧ k < q.arr.globalStop

/-! ### Containers -/

section containers

variable {α : Type}

theorem get_cons (a : String × α) (l : List (String × α)) (k : String) :
    get (a :: l) k = if a.1 = k then some a.2 else get l k := by
  unfold get
  by_cases h : a.1 = k <;> simp [h]

theorem get_isSome {l : List (String × α)} {k : String} :
    (get l k).isSome = true ↔ k ∈ l.map Prod.fst := by
  induction l with
  | nil => simp [get]
  | cons a l ih =>
    rw [get_cons]
    by_cases h : a.1 = k
    · simp [h]
    · rw [if_neg h, ih]
      simp [Ne.symm h]

theorem get_none {l : List (String × α)} {k : String} (h : k ∉ l.map Prod.fst) :
    get l k = none := by
  cases hg : get l k with
  | none => rfl
  | some v => exact absurd (get_isSome.mp (by rw [hg]; rfl)) h

theorem get_append (l l' : List (String × α)) (k : String) :
    get (l ++ l') k = (get l k).or (get l' k) := by
  induction l with
  | nil => simp [get]
  | cons a l ih =>
    rw [List.cons_append, get_cons, get_cons, ih]
    by_cases h : a.1 = k <;> simp [h]

theorem create_ok {l : List (String × α)} {k : String} (h : k ∉ l.map Prod.fst) (v : α) :
    create l k v = .ok (l ++ [(k, v)]) := by
  unfold create
  rw [get_none h]
  rfl

theorem put_keys (l : List (String × α)) (k : String) (v : α) :
    (put l k v).map Prod.fst = l.map Prod.fst := by
  unfold put
  rw [List.map_map]
  apply List.map_congr_left
  intro e _
  by_cases h : e.1 = k <;> simp [h]

theorem get_put_other (l : List (String × α)) {k j : String} (v : α) (h : j ≠ k) :
    get (put l k v) j = get l j := by
  induction l with
  | nil => rfl
  | cons a l ih =>
    unfold put at ih ⊢
    rw [List.map_cons, get_cons, get_cons, ih]
    by_cases hk : a.1 = k
    · have h1 : ¬ k = j := fun e => h e.symm
      simp [hk, h1]
    · simp [hk]

theorem get_put_self {l : List (String × α)} {k : String} {v : α} (w : α) (h : get l k = some v) :
    get (put l k w) k = some w := by
  induction l with
  | nil => simp [get] at h
  | cons a l ih =>
    rw [get_cons] at h
    unfold put at ih ⊢
    rw [List.map_cons, get_cons]
    by_cases hk : a.1 = k
    · simp [hk]
    · rw [if_neg hk] at h ⊢
      rw [if_neg hk]
      exact ih h

/-- Only the object at `k` changes. -/
structure Changed (k : String) (l l' : List (String × α)) (v : α) : Prop where
  keys : l'.map Prod.fst = l.map Prod.fst
  at_key : get l' k = some v
  others : ∀ j, j ≠ k → get l' j = get l j

theorem update_changed {l : List (String × α)} {k : String} {v v' : α} {f : α → Except Err α}
    (h : get l k = some v) (hf : f v = .ok v') :
    ∃ l', update l k f = .ok l' ∧ Changed k l l' v' := by
  refine ⟨put l k v', ?_, put_keys _ _ _, get_put_self _ h, fun j hj => get_put_other _ _ hj⟩
  unfold update
  rw [h]
  simp only
  rw [hf]

theorem fold_changed {β : Type} {k : String} (h : β → α → Except Err α) :
    ∀ (bs : List β) (l : List (String × α)) (v v' : α), get l k = some v →
      bs.foldlM (fun v b => h b v) v = .ok v' →
      ∃ l', bs.foldlM (fun l b => update l k (h b)) l = .ok l' ∧ Changed k l l' v'
  | [], l, v, v', hl, hf => by
    simp only [List.foldlM_nil, pure, Except.pure, Except.ok.injEq] at hf
    subst hf
    exact ⟨l, rfl, rfl, hl, fun _ _ => rfl⟩
  | b :: bs, l, v, v', hl, hf => by
    rw [List.foldlM_cons] at hf
    cases hb : h b v with
    | error e => rw [hb] at hf; cases hf
    | ok w =>
      rw [hb] at hf
      obtain ⟨l1, e1, c1⟩ := update_changed hl hb
      obtain ⟨l2, e2, c2⟩ := fold_changed h bs l1 w v' c1.at_key hf
      refine ⟨l2, ?_, c2.keys.trans c1.keys, c2.at_key, fun j hj =>
        (c2.others j hj).trans (c1.others j hj)⟩
      rw [List.foldlM_cons, e1]
      exact e2

end containers

/-! ### Creating groups -/

/-- The group as `before_iteration` creates it. -/
def emptyGroup (m : Meta) (embedded : Bool) : Group :=
  ("time", zeros [1]) :: m.quantities.map (fun q => (q.name, zeros q.arr.globalShape)) ++
    (if embedded then [("error_measure", zeros [1])] else [])

theorem create_all : ∀ (qs : List Quantity) (g : Group),
    (g.map Prod.fst ++ qs.map Quantity.name).Nodup →
    qs.foldlM (fun g q => create g q.name (zeros q.arr.globalShape)) g
      = .ok (g ++ qs.map fun q => (q.name, zeros q.arr.globalShape))
  | [], g, _ => by simp [pure, Except.pure]
  | q :: qs, g, h => by
    have hq : q.name ∉ g.map Prod.fst := by
      intro hc
      have := (List.nodup_append.mp h).2.2 q.name hc q.name (by simp)
      exact this rfl
    rw [List.foldlM_cons, create_ok hq]
    simp only [bind, Except.bind]
    rw [create_all qs _ (by simpa using h)]
    simp

theorem createOne_ok {m : Meta} {embedded : Bool} {f : File} {k : String}
    (hk : k ∉ f.map Prod.fst) (hn : (m.quantities.map Quantity.name).Nodup)
    (ht : "time" ∉ m.quantities.map Quantity.name)
    (he : "error_measure" ∉ m.quantities.map Quantity.name) :
    ∃ f', createOne m embedded f k = .ok f' ∧ f'.map Prod.fst = f.map Prod.fst ++ [k] ∧
      get f' k = some (emptyGroup m embedded) ∧ ∀ j, j ≠ k → get f' j = get f j := by
  have h1 := create_ok hk ([] : Group)
  have g1 : get (f ++ [(k, ([] : Group))]) k = some [] := by
    rw [get_append, get_none hk, get_cons]; simp
  obtain ⟨f2, e2, c2⟩ := update_changed (f := fun g => create g "time" (zeros [1])) g1
    (create_ok (l := ([] : Group)) (k := "time") (by simp) (zeros [1]))
  obtain ⟨f3, e3, c3⟩ := fold_changed
    (fun (q : Quantity) (g : Group) => create g q.name (zeros q.arr.globalShape)) m.quantities f2 _
    _ c2.at_key (create_all m.quantities _ (by
      simp only [List.nil_append, List.map_cons, List.map_nil, List.singleton_append]
      exact List.nodup_cons.mpr ⟨ht, hn⟩))
  have hoth : ∀ j, j ≠ k → get f3 j = get f j := by
    intro j hj
    rw [c3.others j hj, c2.others j hj, get_append]
    have : get [(k, ([] : Group))] j = none := get_none (by simpa using hj)
    rw [this, Option.or_none]
  have hkeys : f3.map Prod.fst = f.map Prod.fst ++ [k] := by
    rw [c3.keys, c2.keys]; simp
  unfold createOne
  rw [h1]
  simp only [bind, Except.bind]
  rw [e2]
  simp only
  rw [e3]
  simp only
  cases embedded with
  | false =>
    refine ⟨f3, rfl, hkeys, ?_, hoth⟩
    rw [c3.at_key]
    simp [emptyGroup]
  | true =>
    obtain ⟨f4, e4, c4⟩ := update_changed
      (f := fun g => create g "error_measure" (zeros [1])) c3.at_key
      (create_ok (k := "error_measure") (by
        simp only [List.nil_append, List.singleton_append, List.map_cons, List.map_map,
          List.mem_cons, not_or]
        exact ⟨by decide, he⟩) (zeros [1]))
    refine ⟨f4, by rw [if_pos rfl]; exact e4, by rw [c4.keys, hkeys], ?_,
      fun j hj => (c4.others j hj).trans (hoth j hj)⟩
    rw [c4.at_key]
    simp [emptyGroup]

/-! ### Writing a group -/

/-- The state of a group while the ranks write: `wt` and `we` tell whether the time
and the error have been written, `done` which entries are in place. -/
structure Writing (names : List String) (shape : String → List ℕ) (t : ℝ) (G : String → ℕ → ℝ)
    (e : Option ℝ) (wt we : Prop) (done : String → ℕ → Prop) (g : Group) : Prop where
  keys : g.map Prod.fst = "time" :: names ++ (if e.isSome then ["error_measure"] else [])
  time : ∃ ds, get g "time" = some ds ∧ ds.shape = [1] ∧ (wt → ds.cell [0] = t)
  values : ∀ nm ∈ names, ∃ ds, get g nm = some ds ∧ ds.shape = shape nm ∧
    ∀ k < (shape nm).prod, done nm k → ds.cell (unravel (shape nm) k) = G nm k
  error : ∀ x, e = some x →
    ∃ ds, get g "error_measure" = some ds ∧ ds.shape = [1] ∧ (we → ds.cell [0] = x)

theorem Writing.holds {names : List String} {shape : String → List ℕ} {t : ℝ}
    {G : String → ℕ → ℝ} {e : Option ℝ} {wt we : Prop} {done : String → ℕ → Prop} {g : Group}
    (h : Writing names shape t G e wt we done g) (ht : wt) (he : we)
    (hd : ∀ nm ∈ names, ∀ k < (shape nm).prod, done nm k) : Holds names shape g t G e := by
  refine ⟨h.keys, ?_, ?_, ?_⟩
  · obtain ⟨ds, h1, h2, h3⟩ := h.time
    exact ⟨ds, h1, h2, h3 ht⟩
  · intro nm hnm
    obtain ⟨ds, h1, h2, h3⟩ := h.values nm hnm
    refine ⟨ds, h1, h2, fun idx hv => ?_⟩
    have := h3 _ (ravel_lt hv) (hd nm hnm _ (ravel_lt hv))
    rwa [unravel_ravel hv] at this
  · intro x hx
    obtain ⟨ds, h1, h2, h3⟩ := h.error x hx
    exact ⟨ds, h1, h2, h3 he⟩

theorem get_map_zeros {qs : List Quantity} {q : Quantity}
    (hn : (qs.map Quantity.name).Nodup) (hq : q ∈ qs) :
    get (qs.map fun q => (q.name, zeros q.arr.globalShape)) q.name
      = some (zeros q.arr.globalShape) := by
  induction qs with
  | nil => cases hq
  | cons a l ih =>
    rw [List.map_cons, get_cons]
    simp only [List.map_cons, List.nodup_cons] at hn
    rcases List.mem_cons.mp hq with rfl | hq
    · simp
    · have : a.name ≠ q.name := fun e => hn.1 (e ▸ List.mem_map_of_mem hq)
      rw [if_neg this]
      exact ih hn.2 hq

theorem emptyGroup_writing {m : Meta} {embedded : Bool} {names : List String}
    {shape : String → List ℕ} {e : Option ℝ} (t : ℝ) (G : String → ℕ → ℝ)
    (hnames : m.quantities.map Quantity.name = names) (hn : names.Nodup) (ht : "time" ∉ names)
    (he : "error_measure" ∉ names)
    (hg : ∀ q ∈ m.quantities, q.arr.globalShape = shape q.name) (hemb : e.isSome = embedded) :
    Writing names shape t G e False False (fun _ _ => False) (emptyGroup m embedded) := by
  have hk : (m.quantities.map fun q => (q.name, zeros q.arr.globalShape)).map Prod.fst = names := by
    rw [List.map_map, ← hnames]; rfl
  refine ⟨?_, ?_, ?_, ?_⟩
  · unfold emptyGroup
    rw [List.cons_append, List.map_cons, List.map_append, hk, hemb]
    cases embedded <;> simp
  · exact ⟨zeros [1], by unfold emptyGroup; rw [List.cons_append, get_cons]; simp, rfl,
      fun h => h.elim⟩
  · intro nm hnm
    rw [← hnames] at hnm
    obtain ⟨q, hq, rfl⟩ := List.mem_map.mp hnm
    refine ⟨zeros q.arr.globalShape, ?_, hg q hq, fun _ _ h => h.elim⟩
    unfold emptyGroup
    rw [List.cons_append, get_cons]
    have : ¬ "time" = q.name := fun e => ht (by rw [e, ← hnames]; exact List.mem_map_of_mem hq)
    rw [if_neg this, get_append, get_map_zeros (by rw [hnames]; exact hn) hq]
    rfl
  · intro x hx
    have hE : embedded = true := by rw [← hemb, hx]; rfl
    refine ⟨zeros [1], ?_, rfl, fun h => h.elim⟩
    unfold emptyGroup
    rw [List.cons_append, get_cons, if_neg (by decide), get_append, get_none (by rw [hk]; exact he),
      hE]
    simp [get_cons]

/-- What a quantity covers of its array. -/
def covers (q : Quantity) (nm : String) (k : ℕ) : Prop :=
  q.name = nm ∧ 0 ∉ q.arr.shape ∧ q.arr.globalStart ≤ k ∧ k < q.arr.globalStop

theorem write_quantities {names : List String} {shape : String → List ℕ} {t : ℝ}
    {G : String → ℕ → ℝ} {e : Option ℝ} {wt we : Prop} {x : ℕ → ℝ} (htime : "time" ∉ names)
    (herr : "error_measure" ∉ names) :
    ∀ (qs : List Quantity), (∀ q ∈ qs, q.name ∈ names ∧ q.arr.globalShape = shape q.name ∧
        (0 ∉ q.arr.shape → (∃ sl, Block q sl) ∧
          q.arr.globalStop = q.arr.globalStart + q.arr.shape.prod) ∧
        ∀ k < q.arr.shape.prod, x (q.arr.start + k) = G q.name (q.arr.globalStart + k)) →
      ∀ (done : String → ℕ → Prop) (g : Group), Writing names shape t G e wt we done g →
      ∃ g', qs.foldlM (writeQuantity x) g = .ok g' ∧
        Writing names shape t G e wt we (fun nm k => done nm k ∨ ∃ q ∈ qs, covers q nm k) g'
  | [], _, done, g, hw => ⟨g, rfl, by simpa using hw⟩
  | q :: qs, hq, done, g, hw => by
    obtain ⟨hname, hglob, hblock, hval⟩ := hq q (by simp)
    have hrest := fun q' h' => hq q' (List.mem_cons_of_mem _ h')
    rw [List.foldlM_cons]
    unfold writeQuantity
    by_cases h0 : 0 ∈ q.arr.shape
    · rw [if_pos h0]
      obtain ⟨g', e', w'⟩ := write_quantities htime herr qs hrest done g hw
      refine ⟨g', e', ?_⟩
      have : (fun nm k => done nm k ∨ ∃ q' ∈ q :: qs, covers q' nm k)
          = fun nm k => done nm k ∨ ∃ q' ∈ qs, covers q' nm k := by
        funext nm k
        have hc : ¬ covers q nm k := fun h => h.2.1 h0
        simp [hc]
      rw [this]
      exact w'
    · rw [if_neg h0]
      obtain ⟨⟨sl, hb⟩, hstop⟩ := hblock h0
      obtain ⟨ds, hds, hsh, hcell⟩ := hw.values q.name hname
      obtain ⟨ds', e1, s1, c1⟩ := writeSlab_block hb (fun k => x (q.arr.start + k)) ds
      obtain ⟨g1, eg, cg⟩ := update_changed hds e1
      rw [hb.indices]
      simp only
      rw [eg]
      simp only [bind, Except.bind]
      have w1 : Writing names shape t G e wt we
          (fun nm k => done nm k ∨ covers q nm k) g1 := by
        refine ⟨by rw [cg.keys, hw.keys], ?_, ?_, ?_⟩
        · rw [cg.others _ fun e => htime (by rw [e]; exact hname)]
          exact hw.time
        · intro nm hnm
          by_cases hqn : q.name = nm
          · subst hqn
            refine ⟨ds', cg.at_key, s1.trans hsh, fun k hk hd => ?_⟩
            rw [← hglob] at hk ⊢
            rw [c1 k hk]
            by_cases hr : q.arr.globalStart ≤ k ∧ k < q.arr.globalStop
            · rw [if_pos hr, hval _ (by omega)]
              congr 1
              omega
            · rw [if_neg hr]
              rcases hd with hd | hd
              · rw [hglob] at hk ⊢
                exact hcell k hk hd
              · exact absurd hd.2.2 hr
          · obtain ⟨dn, hdn, hsn, hcn⟩ := hw.values nm hnm
            refine ⟨dn, by rw [cg.others _ (Ne.symm hqn)]; exact hdn, hsn, fun k hk hd => ?_⟩
            rcases hd with hd | hd
            · exact hcn k hk hd
            · exact absurd hd.1 hqn
        · intro y hy
          rw [cg.others _ fun e => herr (by rw [e]; exact hname)]
          exact hw.error y hy
      obtain ⟨g', e', w'⟩ := write_quantities htime herr qs hrest _ g1 w1
      refine ⟨g', e', ?_⟩
      have : (fun nm k => done nm k ∨ ∃ q' ∈ q :: qs, covers q' nm k)
          = fun nm k => (done nm k ∨ covers q nm k) ∨ ∃ q' ∈ qs, covers q' nm k := by
        funext nm k
        simp [or_assoc]
      rw [this]
      exact w'

/-- One rank writes. -/
theorem writeGroup_ok {ms : List Meta} {names : List String} {shape : String → List ℕ}
    (hl : Layout ms names shape) {m : Meta} (hm : m ∈ ms) {t : ℝ} {G : String → ℕ → ℝ}
    {e : Option ℝ} {wt we : Prop} {x : ℕ → ℝ}
    (hx : ∀ q ∈ m.quantities, ∀ k < q.arr.shape.prod,
      x (q.arr.start + k) = G q.name (q.arr.globalStart + k))
    {done : String → ℕ → Prop} {g : Group} (hw : Writing names shape t G e wt we done g) :
    ∃ g', writeGroup m t x e g = .ok g' ∧ Writing names shape t G e True True
      (fun nm k => done nm k ∨ ∃ q ∈ m.quantities, covers q nm k) g' := by
  obtain ⟨dt, hdt, hst, _⟩ := hw.time
  obtain ⟨g1, e1, c1⟩ := update_changed (f := writeScalar t) hdt rfl
  have hne : ∀ nm ∈ names, nm ≠ "time" := fun nm hnm h => hl.time (h ▸ hnm)
  have hne' : ∀ nm ∈ names, nm ≠ "error_measure" := fun nm hnm h => hl.error (h ▸ hnm)
  have hq : ∀ q ∈ m.quantities, q.name ∈ names ∧ q.arr.globalShape = shape q.name ∧
      (0 ∉ q.arr.shape → (∃ sl, Block q sl) ∧
        q.arr.globalStop = q.arr.globalStart + q.arr.shape.prod) ∧
      ∀ k < q.arr.shape.prod, x (q.arr.start + k) = G q.name (q.arr.globalStart + k) :=
    fun q hq => ⟨by rw [← hl.sameNames m hm]; exact List.mem_map_of_mem hq, hl.global m hm q hq,
      fun h0 => ⟨hl.block m hm q hq h0, hl.size m hm q hq h0⟩, hx q hq⟩
  have w2 : Writing names shape t G e True we done g1 := by
    refine ⟨c1.keys.trans hw.keys, ⟨_, c1.at_key, hst, fun _ => by simp⟩, ?_, ?_⟩
    · intro nm hnm
      rw [c1.others nm (hne nm hnm)]
      exact hw.values nm hnm
    · intro y hy
      rw [c1.others "error_measure" (by decide)]
      exact hw.error y hy
  obtain ⟨g2, e2, w3⟩ := write_quantities hl.time hl.error m.quantities hq done g1 w2
  unfold writeGroup
  rw [e1]
  simp only [bind, Except.bind]
  rw [e2]
  simp only
  cases e with
  | none =>
    exact ⟨g2, rfl, w3.keys, w3.time, w3.values, fun y hy => by cases hy⟩
  | some y =>
    obtain ⟨de, hde, hse, _⟩ := w3.error y rfl
    obtain ⟨g3, e3, c3⟩ := update_changed (f := writeScalar y) hde rfl
    refine ⟨g3, e3, c3.keys.trans w3.keys, ?_, ?_, ?_⟩
    · rw [c3.others "time" (by decide)]
      exact w3.time
    · intro nm hnm
      rw [c3.others nm (hne' nm hnm)]
      exact w3.values nm hnm
    · intro z hz
      cases hz
      exact ⟨_, c3.at_key, hse, fun _ => by simp⟩

/-! ### The callbacks of one step -/

theorem parseKey_toString (k : ℕ) : parseKey (toString k) = k := by
  unfold parseKey
  rw [Nat.toString_eq_repr, Nat.toList_repr]
  exact Nat.ofDigitChars_ten_toDigits

theorem toString_inj {j k : ℕ} (h : toString j = toString k) : j = k := by
  rw [← parseKey_toString j, h, parseKey_toString]

theorem zero_ne_toString {k : ℕ} (h : k ≠ 0) : "0" ≠ toString k :=
  fun e => h (toString_inj (j := 0) (k := k) e).symm

/-- The state of a file while the ranks write. -/
def Pending (names : List String) (shape : String → List ℕ) (t : ℝ) (G : String → ℕ → ℝ)
    (e : Option ℝ) (wrote : Prop) (done : String → ℕ → Prop) (f : File) (key : String) : Prop :=
  ∃ g, get f key = some g ∧ Writing names shape t G e wrote wrote done g

/-- What a rank knows: its state consists of parts of the global values. -/
structure Good (ms : List Meta) (it : ℕ) (t0 : ℝ) (G0 : String → ℕ → ℝ) (t1 : ℝ)
    (G1 : String → ℕ → ℝ) (e : Option ℝ) (a : Meta × Snap) : Prop where
  mem : a.1 ∈ ms
  startTime : it = 1 → a.2.startTime = t0
  startState : it = 1 → ∀ q ∈ a.1.quantities, ∀ k < q.arr.shape.prod,
    a.2.startState (q.arr.start + k) = G0 q.name (q.arr.globalStart + k)
  finalTime : a.2.finalTime = t1
  finalState : ∀ q ∈ a.1.quantities, ∀ k < q.arr.shape.prod,
    a.2.finalState (q.arr.start + k) = G1 q.name (q.arr.globalStart + k)
  err : a.2.err = e

theorem update_pending {ms : List Meta} {names : List String} {shape : String → List ℕ}
    (hl : Layout ms names shape) {m : Meta} (hm : m ∈ ms) {t : ℝ} {G : String → ℕ → ℝ}
    {e : Option ℝ} {wrote : Prop} {x : ℕ → ℝ}
    (hx : ∀ q ∈ m.quantities, ∀ k < q.arr.shape.prod,
      x (q.arr.start + k) = G q.name (q.arr.globalStart + k))
    {done : String → ℕ → Prop} {f : File} {key : String}
    (hp : Pending names shape t G e wrote done f key) :
    ∃ f', update f key (writeGroup m t x e) = .ok f' ∧ f'.map Prod.fst = f.map Prod.fst ∧
      (∀ j, j ≠ key → get f' j = get f j) ∧
      Pending names shape t G e True
        (fun nm k => done nm k ∨ ∃ q ∈ m.quantities, covers q nm k) f' key := by
  obtain ⟨g, hg, hw⟩ := hp
  obtain ⟨g', hg', hw'⟩ := writeGroup_ok hl hm hx hw
  obtain ⟨f', hf', c⟩ := update_changed hg hg'
  exact ⟨f', hf', c.keys, c.others, g', c.at_key, hw'⟩

theorem Pending.transfer {names : List String} {shape : String → List ℕ} {t : ℝ}
    {G : String → ℕ → ℝ} {e : Option ℝ} {wrote : Prop} {done : String → ℕ → Prop} {f f' : File}
    {key : String} (h : Pending names shape t G e wrote done f key)
    (hf : get f' key = get f key) : Pending names shape t G e wrote done f' key := by
  obtain ⟨g, hg, hw⟩ := h
  exact ⟨g, hf.trans hg, hw⟩

theorem Pending.holds {names : List String} {shape : String → List ℕ} {t : ℝ}
    {G : String → ℕ → ℝ} {e : Option ℝ} {wrote : Prop} {done : String → ℕ → Prop} {f : File}
    {key : String} (h : Pending names shape t G e wrote done f key) (hw : wrote)
    (hd : ∀ nm ∈ names, ∀ k < (shape nm).prod, done nm k) :
    ∃ g, get f key = some g ∧ Holds names shape g t G e := by
  obtain ⟨g, hg, hW⟩ := h
  exact ⟨g, hg, hW.holds hw hw hd⟩

theorem afterRank_ok {ms : List Meta} {names : List String} {shape : String → List ℕ}
    (hl : Layout ms names shape) {period it : ℕ} (hper : 0 < period) {t0 t1 : ℝ}
    {G0 G1 : String → ℕ → ℝ} {e : Option ℝ} {a : Meta × Snap}
    (ha : Good ms it t0 G0 t1 G1 e a) {wrote : Prop} {done : String → ℕ → Prop} {f : File}
    (h0 : it = 1 → Pending names shape t0 G0 (e.map fun _ => 0) wrote done f "0")
    (h1 : it % period = 0 → Pending names shape t1 G1 e wrote done f (toString it)) :
    ∃ f', afterRank period it f a = .ok f' ∧ f'.map Prod.fst = f.map Prod.fst ∧
      (∀ j, (it = 1 → j ≠ "0") → (it % period = 0 → j ≠ toString it) → get f' j = get f j) ∧
      (it = 1 → Pending names shape t0 G0 (e.map fun _ => 0) True
        (fun nm k => done nm k ∨ ∃ q ∈ a.1.quantities, covers q nm k) f' "0") ∧
      (it % period = 0 → Pending names shape t1 G1 e True
        (fun nm k => done nm k ∨ ∃ q ∈ a.1.quantities, covers q nm k) f' (toString it)) := by
  have hdue : due period it = .ok (decide (it % period = 0)) := by
    unfold due
    rw [if_neg (by omega)]
  -- the initial values
  have first : ∃ f1, writeInitial it f a = .ok f1 ∧ f1.map Prod.fst = f.map Prod.fst ∧
      (∀ j, (it = 1 → j ≠ "0") → get f1 j = get f j) ∧
      (it = 1 → Pending names shape t0 G0 (e.map fun _ => 0) True
        (fun nm k => done nm k ∨ ∃ q ∈ a.1.quantities, covers q nm k) f1 "0") := by
    unfold writeInitial
    by_cases hit : it = 1
    · rw [if_pos hit, ha.startTime hit, ha.err]
      obtain ⟨f1, e1, k1, o1, p1⟩ := update_pending hl ha.mem (ha.startState hit) (h0 hit)
      exact ⟨f1, e1, k1, fun j hj => o1 j (hj hit), fun _ => p1⟩
    · rw [if_neg hit]
      exact ⟨f, rfl, rfl, fun _ _ => rfl, fun h => absurd h hit⟩
  obtain ⟨f1, e1, k1, o1, p1⟩ := first
  have hone : it = 1 → toString it ≠ "0" := fun h => (zero_ne_toString (k := it) (by omega)).symm
  unfold afterRank
  rw [e1]
  simp only [bind, Except.bind]
  rw [hdue]
  simp only
  by_cases hd : it % period = 0
  · obtain ⟨f2, e2, k2, o2, p2⟩ := update_pending hl ha.mem ha.finalState
      ((h1 hd).transfer (o1 _ fun h => hone h))
    rw [if_pos (by simpa using hd), ha.finalTime, ha.err]
    refine ⟨f2, e2, k2.trans k1, fun j hj hj' => (o2 j (hj' hd)).trans (o1 j hj), fun h => ?_,
      fun _ => p2⟩
    exact (p1 h).transfer (o2 _ (Ne.symm (hone h)))
  · rw [if_neg (by simpa using hd)]
    exact ⟨f1, rfl, k1, fun j hj _ => o1 j hj, p1, fun h => absurd h hd⟩

theorem ranks_ok {ms : List Meta} {names : List String} {shape : String → List ℕ}
    (hl : Layout ms names shape) {period it : ℕ} (hper : 0 < period) {t0 t1 : ℝ}
    {G0 G1 : String → ℕ → ℝ} {e : Option ℝ} :
    ∀ (L : List (Meta × Snap)), (∀ a ∈ L, Good ms it t0 G0 t1 G1 e a) →
      ∀ (wrote : Prop) (done : String → ℕ → Prop) (f : File),
      (it = 1 → Pending names shape t0 G0 (e.map fun _ => 0) wrote done f "0") →
      (it % period = 0 → Pending names shape t1 G1 e wrote done f (toString it)) →
      ∃ f', L.foldlM (afterRank period it) f = .ok f' ∧ f'.map Prod.fst = f.map Prod.fst ∧
        (∀ j, (it = 1 → j ≠ "0") → (it % period = 0 → j ≠ toString it) → get f' j = get f j) ∧
        (it = 1 → Pending names shape t0 G0 (e.map fun _ => 0) (wrote ∨ L ≠ [])
          (fun nm k => done nm k ∨ ∃ a ∈ L, ∃ q ∈ a.1.quantities, covers q nm k) f' "0") ∧
        (it % period = 0 → Pending names shape t1 G1 e (wrote ∨ L ≠ [])
          (fun nm k => done nm k ∨ ∃ a ∈ L, ∃ q ∈ a.1.quantities, covers q nm k) f' (toString it))
  | [], _, wrote, done, f, h0, h1 => ⟨f, rfl, rfl, fun _ _ _ => rfl, by simpa using h0, by
      simpa using h1⟩
  | a :: L, hL, wrote, done, f, h0, h1 => by
    obtain ⟨f1, e1, k1, o1, p1, q1⟩ := afterRank_ok hl hper (hL a (by simp)) h0 h1
    obtain ⟨f2, e2, k2, o2, p2, q2⟩ := ranks_ok hl hper L
      (fun b hb => hL b (List.mem_cons_of_mem _ hb)) True _ f1 p1 q1
    refine ⟨f2, by rw [List.foldlM_cons, e1]; exact e2, k2.trans k1,
      fun j hj hj' => (o2 j hj hj').trans (o1 j hj hj'), ?_, ?_⟩
    · simpa [or_assoc] using p2
    · simpa [or_assoc] using q2

/-- The keys a step adds. -/
def newKeys (period it : ℕ) : List ℕ :=
  (if it = 1 then [0] else []) ++ (if it % period = 0 then [it] else [])

theorem create_keys {m : Meta} {embedded : Bool} (hn : (m.quantities.map Quantity.name).Nodup)
    (ht : "time" ∉ m.quantities.map Quantity.name)
    (he : "error_measure" ∉ m.quantities.map Quantity.name) :
    ∀ (ks : List String) (f : File), (f.map Prod.fst ++ ks).Nodup →
      ∃ f', ks.foldlM (createOne m embedded) f = .ok f' ∧
        f'.map Prod.fst = f.map Prod.fst ++ ks ∧
        (∀ k ∈ ks, get f' k = some (emptyGroup m embedded)) ∧ ∀ j, j ∉ ks → get f' j = get f j
  | [], f, _ => ⟨f, rfl, by simp, by simp, fun _ _ => rfl⟩
  | k :: ks, f, h => by
    have hk : k ∉ f.map Prod.fst := by
      intro hc
      exact (List.nodup_append.mp h).2.2 k hc k (by simp) rfl
    obtain ⟨f1, e1, k1, g1, o1⟩ := createOne_ok (embedded := embedded) hk hn ht he
    obtain ⟨f2, e2, k2, g2, o2⟩ := create_keys (embedded := embedded) hn ht he ks f1 (by
      rw [k1]; simpa using h)
    have hnk : k ∉ ks := (List.nodup_cons.mp (List.nodup_append.mp h).2.1).1
    refine ⟨f2, by rw [List.foldlM_cons, e1]; exact e2, by rw [k2, k1]; simp, ?_, ?_⟩
    · intro j hj
      rcases List.mem_cons.mp hj with rfl | hj
      · rw [o2 j hnk, g1]
      · exact g2 j hj
    · intro j hj
      simp only [List.mem_cons, not_or] at hj
      rw [o2 j hj.2, o1 j hj.1]

theorem before_ok {ms : List Meta} {names : List String} {shape : String → List ℕ}
    (hl : Layout ms names shape) {period it : ℕ} (hper : 0 < period) {embedded : Bool}
    {f : Option File} {f0 : File} (hf : openFile f (it = 1) = .ok f0)
    (hk : (f0.map Prod.fst ++ (newKeys period it).map toString).Nodup) :
    ∃ f', before period (ms.headD {}) embedded it f = .ok f' ∧
      f'.map Prod.fst = f0.map Prod.fst ++ (newKeys period it).map toString ∧
      (∀ k ∈ newKeys period it,
        get f' (toString k) = some (emptyGroup (ms.headD {}) embedded)) ∧
      ∀ j, j ∉ (newKeys period it).map toString → get f' j = get f0 j := by
  have hm : ms.headD {} ∈ ms := by
    have := hl.nonempty
    cases ms with
    | nil => exact absurd rfl this
    | cons a l => simp
  have hnames := hl.sameNames _ hm
  obtain ⟨f', e1, k1, g1, o1⟩ := create_keys (m := ms.headD {}) (embedded := embedded)
    (by rw [hnames]; exact hl.nodup) (by rw [hnames]; exact hl.time) (by rw [hnames]; exact hl.error)
    ((newKeys period it).map toString) f0 hk
  refine ⟨f', ?_, k1, fun k hk => g1 _ (List.mem_map_of_mem hk), o1⟩
  have hdue : due period it = .ok (decide (it % period = 0)) := by
    unfold due
    rw [if_neg (by omega)]
  unfold before
  rw [hdue]
  simp only [bind, Except.bind]
  rw [hf]
  simp only
  rw [← e1]
  congr 1
  unfold newKeys
  by_cases h1 : it = 1 <;> by_cases h2 : it % period = 0
  · rw [if_pos h1, if_pos h1, if_pos (by simpa using h2), if_pos h2]; rfl
  · rw [if_pos h1, if_pos h1, if_neg (by simpa using h2), if_neg h2]; rfl
  · rw [if_neg h1, if_neg h1, if_pos (by simpa using h2), if_pos h2]; rfl
  · rw [if_neg h1, if_neg h1, if_neg (by simpa using h2), if_neg h2]; rfl

/-! ### Runs -/

/-- The steps in a file after `n` steps. -/
def written (period n : ℕ) : List ℕ := 0 :: (List.range' 1 n).filter fun k => k % period = 0

theorem written_succ (period n : ℕ) (hn : 1 ≤ n) :
    written period (n + 1) = written period n ++ newKeys period (n + 1) := by
  unfold written newKeys
  rw [List.range'_1_concat, List.filter_append, if_neg (by omega)]
  by_cases h : (n + 1) % period = 0
  · rw [if_pos h]; simp [Nat.add_comm 1 n, h]
  · rw [if_neg h]; simp [Nat.add_comm 1 n, h]

theorem written_one (period : ℕ) : written period 1 = newKeys period 1 := by
  unfold written newKeys
  rw [if_pos rfl]
  by_cases h : 1 % period = 0
  · rw [if_pos h]; simp [h]
  · rw [if_neg h]; simp [h]

theorem written_nodup (period n : ℕ) : (written period n).Nodup := by
  unfold written
  refine List.nodup_cons.mpr ⟨?_, (List.nodup_range').filter _⟩
  intro h
  have := (List.mem_filter.mp h).1
  simp at this

theorem map_toString_nodup {l : List ℕ} (h : l.Nodup) :
    (l.map (toString : ℕ → String)).Nodup :=
  h.map fun _ _ => toString_inj

/-- The states of the ranks after step `it` belong to the trajectory with times `t`, values `G`
and errors `e`. -/
structure Recorded (ms : List Meta) (t : ℕ → ℝ) (G : ℕ → String → ℕ → ℝ) (e : ℕ → Option ℝ)
    (it : ℕ) (snaps : List Snap) : Prop where
  startTime : it = 1 → ∀ s ∈ snaps, s.startTime = t 0
  startState : it = 1 → Held ms (snaps.map Snap.startState) (G 0)
  finalTime : ∀ s ∈ snaps, s.finalTime = t it
  finalState : Held ms (snaps.map Snap.finalState) (G it)
  err : ∀ s ∈ snaps, s.err = e it

theorem held_zip {ms : List Meta} {snaps : List Snap} {c : Snap → ℕ → ℝ} {G : String → ℕ → ℝ}
    (h : Held ms (snaps.map c) G) : ∀ a ∈ ms.zip snaps, ∀ q ∈ a.1.quantities,
      ∀ k < q.arr.shape.prod, c a.2 (q.arr.start + k) = G q.name (q.arr.globalStart + k) := by
  unfold Held at h
  rw [List.forall₂_map_right_iff] at h
  induction h with
  | nil => intro a ha; cases ha
  | cons hab _ ih =>
    intro a ha
    rw [List.zip_cons_cons] at ha
    rcases List.mem_cons.mp ha with rfl | ha
    · exact hab
    · exact ih a ha

theorem Recorded.good {ms : List Meta} {t : ℕ → ℝ} {G : ℕ → String → ℕ → ℝ} {e : ℕ → Option ℝ}
    {it : ℕ} {snaps : List Snap} (h : Recorded ms t G e it snaps) :
    ∀ a ∈ ms.zip snaps, Good ms it (t 0) (G 0) (t it) (G it) (e it) a := by
  intro a ha
  have h1 := (List.of_mem_zip ha).1
  have h2 := (List.of_mem_zip ha).2
  exact ⟨h1, fun hi => h.startTime hi _ h2, fun hi => held_zip (h.startState hi) a ha,
    h.finalTime _ h2, held_zip h.finalState a ha, h.err _ h2⟩

theorem mem_zip_left {α β : Type} {l : List α} {l' : List β} (h : l.length = l'.length) {a : α}
    (ha : a ∈ l) : ∃ b, (a, b) ∈ l.zip l' := by
  obtain ⟨i, hi, rfl⟩ := List.mem_iff_getElem.mp ha
  refine ⟨l'[i]'(by omega), ?_⟩
  rw [List.mem_iff_getElem]
  exact ⟨i, by simp; omega, by simp⟩

theorem step_ok {ms : List Meta} {names : List String} {shape : String → List ℕ}
    (hl : Layout ms names shape) {period it : ℕ} (hper : 0 < period) (hit : 1 ≤ it)
    {t : ℕ → ℝ} {G : ℕ → String → ℕ → ℝ} {e : ℕ → Option ℝ} {embedded : Bool}
    (he : ∀ k, (e k).isSome = embedded) (he0 : e 0 = (e it).map fun _ => 0)
    {snaps : List Snap} (hs : Recorded ms t G e it snaps) {f : Option File} {f0 : File}
    (hf : openFile f (it = 1) = .ok f0) {ks : List ℕ}
    (hf0 : FileHolds names shape f0 ks t G e) (hks : (ks ++ newKeys period it).Nodup) :
    ∃ f', stepFile period ms embedded it f snaps = .ok f' ∧
      FileHolds names shape f' (ks ++ newKeys period it) t G e := by
  have hlen : ms.length = snaps.length := by
    have := List.Forall₂.length_eq hs.finalState
    simpa using this
  obtain ⟨f1, e1, k1, g1, o1⟩ := before_ok hl hper (embedded := embedded) hf (by
    rw [hf0.keys, ← List.map_append]
    exact map_toString_nodup hks)
  have hm : ms.headD {} ∈ ms := by
    have := hl.nonempty
    cases ms with
    | nil => exact absurd rfl this
    | cons a l => simp
  have hW : ∀ (k : ℕ) (t' : ℝ) (G' : String → ℕ → ℝ) (e' : Option ℝ), e'.isSome = embedded →
      k ∈ newKeys period it →
      Pending names shape t' G' e' False (fun _ _ => False) f1 (toString k) :=
    fun k t' G' e' he' hk => ⟨_, g1 k hk, by
      have := emptyGroup_writing (embedded := embedded) t' G' (hl.sameNames _ hm) hl.nodup hl.time
        hl.error (hl.global _ hm) he'
      exact this⟩
  have h0mem : it = 1 → 0 ∈ newKeys period it := fun h => by unfold newKeys; rw [if_pos h]; simp
  have h1mem : it % period = 0 → it ∈ newKeys period it := fun h => by
    unfold newKeys; rw [if_pos h]; simp
  obtain ⟨f2, e2, k2, o2, p2, q2⟩ := ranks_ok hl hper (ms.zip snaps) hs.good False
    (fun _ _ => False) f1
    (fun h => hW 0 _ _ _ (by rw [Option.isSome_map]; exact he it) (h0mem h))
    (fun h => hW it _ _ _ (he it) (h1mem h))
  have hne : ms.zip snaps ≠ [] := by
    intro h
    have hz := List.zip_eq_nil_iff.mp h
    rcases hz with hz | hz
    · exact hl.nonempty hz
    · rw [hz] at hlen
      exact hl.nonempty (List.length_eq_zero_iff.mp hlen)
  have hcover : ∀ nm ∈ names, ∀ k < (shape nm).prod,
      False ∨ ∃ a ∈ ms.zip snaps, ∃ q ∈ a.1.quantities, covers q nm k := by
    intro nm hnm k hk
    obtain ⟨m, hm, q, hq, h1, h2, h3⟩ := hl.cover nm hnm k hk
    obtain ⟨s, hs⟩ := mem_zip_left hlen hm
    exact Or.inr ⟨(m, s), hs, q, hq, h1, h2, h3⟩
  refine ⟨f2, ?_, ?_, ?_⟩
  · unfold stepFile
    rw [e1]
    simp only [bind, Except.bind]
    unfold after openFile
    simp only [bind, Except.bind]
    exact e2
  · rw [k2, k1, hf0.keys, List.map_append]
  · intro k hk
    have hdisj : k ∈ ks → k ∉ newKeys period it := fun h1 h2 =>
      (List.nodup_append.mp hks).2.2 k h1 k h2 rfl
    rcases List.mem_append.mp hk with hk | hk
    · obtain ⟨g, hg, hH⟩ := hf0.groups k hk
      refine ⟨g, ?_, hH⟩
      have hnot := hdisj hk
      rw [o2, o1, hg]
      · intro hc
        obtain ⟨j, hj, hjk⟩ := List.mem_map.mp hc
        exact hnot (toString_inj hjk ▸ hj)
      · intro h hc
        have : k = 0 := toString_inj (k := 0) hc
        exact hnot (this ▸ h0mem h)
      · intro h hc
        exact hnot ((toString_inj hc).symm ▸ h1mem h)
    · unfold newKeys at hk
      rcases List.mem_append.mp hk with hk | hk
      · by_cases h : it = 1
        · rw [if_pos h] at hk
          have : k = 0 := by simpa using hk
          subst this
          rw [he0]
          exact (p2 h).holds (Or.inr hne) hcover
        · rw [if_neg h] at hk; cases hk
      · by_cases h : it % period = 0
        · rw [if_pos h] at hk
          have : k = it := by simpa using hk
          subst this
          exact (q2 h).holds (Or.inr hne) hcover
        · rw [if_neg h] at hk; cases hk

theorem run_ok {ms : List Meta} {names : List String} {shape : String → List ℕ}
    (hl : Layout ms names shape) {period : ℕ} (hper : 0 < period)
    {t : ℕ → ℝ} {G : ℕ → String → ℕ → ℝ} {e : ℕ → Option ℝ} {embedded : Bool}
    (he : ∀ k, (e k).isSome = embedded) (he0 : e 0 = if embedded then some 0 else none) :
    ∀ (steps : List (List Snap)) (it : ℕ) (f : Option File), 1 ≤ it →
      (∀ i s, steps[i]? = some s → Recorded ms t G e (it + i) s) →
      (it = 1 ∧ steps ≠ [] ∨ 1 < it ∧ ∃ f0, f = some f0 ∧
        FileHolds names shape f0 (written period (it - 1)) t G e) →
      ∃ f', runFile period ms embedded it f steps = .ok (some f') ∧
        FileHolds names shape f' (written period (it - 1 + steps.length)) t G e
  | [], it, f, hit, _, hf => by
    rcases hf with ⟨_, h⟩ | ⟨_, f0, rfl, hf0⟩
    · exact absurd rfl h
    · exact ⟨f0, rfl, by simpa using hf0⟩
  | s :: steps, it, f, hit, hs, hf => by
    have he0' : ∀ k, e 0 = (e k).map fun _ => 0 := by
      intro k
      rw [he0]
      have := he k
      cases hk : e k with
      | none => rw [hk] at this; simp at this; simp [this]
      | some x => rw [hk] at this; simp at this; simp [this]
    have hrec := hs 0 s rfl
    rw [Nat.add_zero] at hrec
    have hstep : ∃ f1, stepFile period ms embedded it f s = .ok f1 ∧
        FileHolds names shape f1 (written period it) t G e := by
      rcases hf with ⟨h1, _⟩ | ⟨h1, f0, rfl, hf0⟩
      · subst h1
        obtain ⟨f1, e1, h1⟩ := step_ok hl hper hit he (he0' 1) hrec (f := f) (f0 := []) (ks := [])
          rfl ⟨rfl, by simp⟩ (by
            rw [List.nil_append, ← written_one]; exact written_nodup _ _)
        refine ⟨f1, e1, ?_⟩
        rw [written_one]
        exact h1
      · obtain ⟨n, rfl⟩ : ∃ n, it = n + 1 := ⟨it - 1, by omega⟩
        rw [Nat.add_sub_cancel] at hf0
        have hn : 1 ≤ n := by omega
        obtain ⟨f1, e1, h1⟩ := step_ok hl hper hit he (he0' (n + 1)) hrec (f := some f0) (f0 := f0)
          (by unfold openFile; rw [if_neg (by simpa using (by omega : n + 1 ≠ 1))]) hf0 (by
            rw [← written_succ period n hn]; exact written_nodup _ _)
        refine ⟨f1, e1, ?_⟩
        rw [written_succ period n hn]
        exact h1
    obtain ⟨f1, e1, h1⟩ := hstep
    obtain ⟨f2, e2, h2⟩ := run_ok hl hper he he0 steps (it + 1) (some f1) (by omega)
      (fun i s' h => by
        have := hs (i + 1) s' (by simpa using h)
        rwa [show it + 1 + i = it + (i + 1) by omega])
      (Or.inr ⟨by omega, f1, rfl, by simpa using h1⟩)
    refine ⟨f2, ?_, ?_⟩
    · unfold runFile
      rw [e1]
      exact e2
    · have : it - 1 + (s :: steps).length = it + 1 - 1 + steps.length := by
        simp only [List.length_cons]; omega
      rw [this]
      exact h2

end Verif.File
