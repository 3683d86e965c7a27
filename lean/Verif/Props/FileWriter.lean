/-
Properties of the output file and of the functions that read it (C41, C42, C43).
-/
import Verif.File.Layout
import Verif.File.Read

namespace Verif.Props

open Verif.Metadata Verif.File

/-! ### C42 -/

/-- Rank `r` writes the entry `idx` of the dataset of quantity `nm`. -/
def Writes (ms : List Meta) (nm : String) (r : ℕ) (idx : List ℕ) : Prop :=
  ∃ m q sl, ms[r]? = some m ∧ q ∈ m.quantities ∧ q.name = nm ∧ 0 ∉ q.arr.shape ∧
    writeIndices q = .ok sl ∧ inSlab idx sl = true

/-- For a quantity distributed along its first axis, rank `r` writes exactly the entries in its own
rows: those after the rows of the ranks before. -/
theorem C42_own_rows {P : Problem} {n : ℕ} {req ind : List String} {ms : List Meta}
    (h : setup P n req ind = .ok ms) {nm : String} {v : Var} (hv : Ordinary P nm v)
    {ns rest : List ℕ} (hrows : Rows n v ns rest) {r : ℕ} {m : Meta} (hr : ms[r]? = some m)
    (hnm : nm ∈ m.quantities.map Quantity.name) (i : ℕ) (is : List ℕ)
    (hidx : Valid v.globalShape (i :: is)) :
    Writes ms nm r (i :: is) ↔ (ns.take r).sum ≤ i ∧ i < (ns.take r).sum + ns.getD r 0 := by
  have hrn : r < n := by
    obtain ⟨_, _, hlt, _⟩ := setup_rank h hr
    exact hlt
  have hval := hidx
  rw [hrows.global] at hval
  unfold Valid at hval
  rw [List.forall₂_cons] at hval
  have key : ∀ q ∈ m.quantities, q.name = nm → 0 ∉ q.arr.shape → ∃ sl, writeIndices q = .ok sl ∧
      (inSlab (i :: is) sl = true ↔
        (ns.take r).sum ≤ i ∧ i < (ns.take r).sum + ns.getD r 0) := by
    intro q hq hqn h0
    subst hqn
    obtain ⟨e0, e1, e2⟩ := rows_range h hr hq hv hrows h0
    have hg := (rank_quantity h hr hq hv).1
    rw [e0] at h0
    simp only [List.mem_cons, not_or] at h0
    have hb := block_rows e0 (hg.trans hrows.global) (Nat.pos_of_ne_zero fun h => h0.1 h.symm)
      h0.2 (take_add_le ns r) e1 e2
    refine ⟨_, hb.indices, ?_⟩
    simp only [inSlab, inSlab_full hval.2, Bool.and_true, Bool.and_eq_true, decide_eq_true_eq]
  constructor
  · rintro ⟨m', q, sl, hm', hq, hqn, h0, hsl, hin⟩
    rw [hr] at hm'
    cases hm'
    obtain ⟨sl', hsl', hiff⟩ := key q hq hqn h0
    rw [hsl] at hsl'
    cases hsl'
    exact hiff.mp hin
  · intro hi
    obtain ⟨q, hq, hqn⟩ := List.mem_map.mp hnm
    have h0 : 0 ∉ q.arr.shape := by
      have hv' := hv
      rw [← hqn] at hv'
      obtain ⟨_, ⟨hs, _⟩ | ⟨hs, _⟩⟩ := rank_quantity h hr hq hv'
      · rcases hrows.loc r hrn with hl | ⟨hl, _⟩
        · rw [hl] at hs
          rw [← Option.some.inj hs]
          simp only [List.mem_cons, not_or]
          refine ⟨by omega, fun hc => ?_⟩
          have := ravel_lt hval.2
          rw [List.prod_eq_zero hc] at this
          omega
        · rw [hl] at hs; cases hs
      · rcases hrows.loc r hrn with hl | ⟨_, hz⟩
        · rw [hl] at hs; cases hs
        · omega
    obtain ⟨sl, hsl, hiff⟩ := key q hq hqn h0
    exact ⟨m, q, sl, hr, hq, hqn, h0, hsl, hiff.mpr hi⟩

/-- C42: every entry of the dataset is written by exactly one rank: the slabs are disjoint and
cover everything. -/
theorem C42_disjoint_cover {P : Problem} {n : ℕ} {req ind : List String} {ms : List Meta}
    (h : setup P n req ind = .ok ms) {nm : String} {v : Var} (hv : Ordinary P nm v)
    {ns rest : List ℕ} (hrows : Rows n v ns rest)
    (hnm : ∀ m ∈ ms, nm ∈ m.quantities.map Quantity.name) (idx : List ℕ)
    (hidx : Valid v.globalShape idx) : ∃! r, Writes ms nm r idx := by
  have hlen : ms.length = n := by
    obtain ⟨ms0, _, rfl, hl, _⟩ := setup_ok h
    unfold addDistributivity
    simpa using hl
  have hval := hidx
  rw [hrows.global] at hval
  cases hval with
  | @cons i _ is _ hi his =>
    have own := fun {r m} (hr : ms[r]? = some m) =>
      C42_own_rows h hv hrows hr (hnm m (List.mem_of_getElem? hr)) i is hidx
    obtain ⟨r, ⟨h1, h2⟩, huniq⟩ := prefix_unique ns i hi
    have hrm : r < ms.length := by rw [hlen, ← hrows.ranks]; exact h1
    refine ⟨r, (own (List.getElem?_eq_getElem hrm)).mpr h2, fun r' hr' => ?_⟩
    have hw := hr'
    obtain ⟨m', _, _, hm', _⟩ := hr'
    refine huniq r' ⟨?_, (own hm').mp hw⟩
    have := (List.getElem?_eq_some_iff.mp hm').1
    rw [hrows.ranks, ← hlen]
    exact this

/-- C42: what a rank writes lands in the rows after those of the ranks before it, in the order of
the local array, and leaves the rest of the dataset alone. -/
theorem C42_placement {P : Problem} {n : ℕ} {req ind : List String} {ms : List Meta}
    (h : setup P n req ind = .ok ms) {nm : String} {v : Var} (hv : Ordinary P nm v)
    {ns rest : List ℕ} (hrows : Rows n v ns rest) {r : ℕ} {m : Meta} (hr : ms[r]? = some m)
    {q : Quantity} (hq : q ∈ m.quantities) (hnm : q.name = nm) (h0 : 0 ∉ q.arr.shape)
    (x : ℕ → ℝ) (g : Group) (ds : Dataset) (hg : get g nm = some ds) :
    ∃ g' ds', writeQuantity x g q = .ok g' ∧ get g' nm = some ds' ∧ ds'.shape = ds.shape ∧
      (∀ i < ns.getD r 0, ∀ is, Valid rest is → ds'.cell (((ns.take r).sum + i) :: is)
        = x (q.arr.start + (i * rest.prod + ravel rest is))) ∧
      (∀ idx, Valid v.globalShape idx → ¬ Writes ms nm r idx → ds'.cell idx = ds.cell idx) ∧
      (∀ k, k ≠ nm → get g' k = get g k) := by
  subst hnm
  obtain ⟨e0, e1, e2⟩ := rows_range h hr hq hv hrows h0
  have hgs := (rank_quantity h hr hq hv).1
  have h0' := h0
  rw [e0] at h0'
  simp only [List.mem_cons, not_or] at h0'
  have hb := block_rows e0 (hgs.trans hrows.global) (Nat.pos_of_ne_zero fun h => h0'.1 h.symm)
    h0'.2 (take_add_le ns r) e1 e2
  have hp := prod_pos_of_all h0'.2
  obtain ⟨ds', w1, w2, w3⟩ := writeSlab_block hb (fun k => x (q.arr.start + k)) ds
  obtain ⟨g', u1, u2⟩ := update_changed hg w1
  have hcell : ∀ idx, Valid v.globalShape idx → ds'.cell idx
      = if q.arr.globalStart ≤ ravel v.globalShape idx ∧
          ravel v.globalShape idx < q.arr.globalStop
        then x (q.arr.start + (ravel v.globalShape idx - q.arr.globalStart)) else ds.cell idx := by
    intro idx hidx
    have := w3 (ravel v.globalShape idx) (by rw [hgs]; exact ravel_lt hidx)
    rw [hgs, unravel_ravel hidx] at this
    exact this
  refine ⟨g', ds', ?_, u2.at_key, w2, ?_, ?_, u2.others⟩
  · unfold writeQuantity
    rw [if_neg h0, hb.indices]
    exact u1
  · intro i hi is his
    have hle := take_add_le ns r
    have hidx : Valid v.globalShape (((ns.take r).sum + i) :: is) := by
      rw [hrows.global]
      exact .cons (by omega) his
    rw [hcell _ hidx, e1, e2, hrows.global]
    have hlt := ravel_lt his
    have hrv : ravel (ns.sum :: rest) (((ns.take r).sum + i) :: is)
        = ((ns.take r).sum + i) * rest.prod + ravel rest is := rfl
    have a1 : ((ns.take r).sum + i) * rest.prod = (ns.take r).sum * rest.prod + i * rest.prod :=
      Nat.add_mul _ _ _
    have a2 : ((ns.take r).sum + ns.getD r 0) * rest.prod
        = (ns.take r).sum * rest.prod + ns.getD r 0 * rest.prod := Nat.add_mul _ _ _
    have a3 : (i + 1) * rest.prod ≤ ns.getD r 0 * rest.prod := Nat.mul_le_mul_right _ hi
    rw [Nat.add_mul, Nat.one_mul] at a3
    rw [if_pos ⟨by rw [hrv]; omega, by rw [hrv]; omega⟩, hrv]
    congr 1
    omega
  · intro idx hidx hnot
    rw [hcell idx hidx, if_neg]
    intro hc
    refine hnot ⟨m, q, _, hr, hq, rfl, h0, hb.indices, ?_⟩
    rw [hb.selects idx (by rw [hgs]; exact hidx), hgs]
    exact hc

/-! ### C41 -/

/-- C41 for runs whose steps have the numbers 1, 2, ...: whatever the file was before, after `n`
steps it has the groups 0 and the multiples of the period, with the values of the trajectory, put
together from what the ranks hold.

Missing: quantities distributed in another way than along the first axis, quantities called
`time` or `error_measure`, the numbering with pyrevolve checkpointing (see below). -/
theorem C41_file_partial {P : Problem} {ranks : ℕ} {req ind : List String} {ms : List Meta}
    (h : setup P ranks req ind = .ok ms) (hranks : 0 < ranks) {names : List String}
    {vars : String → Var} (hnames : (ms.headD {}).quantities.map Quantity.name = names)
    (hnd : names.Nodup) (ht : "time" ∉ names) (he : "error_measure" ∉ names)
    (hord : ∀ nm ∈ names, Ordinary P nm (vars nm))
    (hpl : ∀ nm ∈ names, Whole ranks (vars nm) ∨ ∃ ns rest, Rows ranks (vars nm) ns rest)
    {period : ℕ} (hper : 0 < period) {embedded : Bool}
    {t : ℕ → ℝ} {G : ℕ → String → ℕ → ℝ} {err : ℕ → ℝ} (herr : err 0 = 0)
    (steps : List (List Snap)) (hsteps : steps ≠ [])
    (hrec : ∀ i s, steps[i]? = some s →
      Recorded ms t G (fun k => if embedded then some (err k) else none) (i + 1) s)
    (before : Option File) :
    ∃ f, runFile period ms embedded 1 before steps = .ok (some f) ∧
      FileHolds names (fun nm => (vars nm).globalShape) f
        (0 :: (List.range' 1 steps.length).filter fun k => period ∣ k) t G
        (fun k => if embedded then some (err k) else none) := by
  have hl := layout_of_setup h hranks hnames hnd ht he hord hpl
  obtain ⟨f, h1, h2⟩ := run_ok hl hper (t := t) (G := G)
    (e := fun k => if embedded then some (err k) else none) (embedded := embedded)
    (by intro k; cases embedded <;> rfl) (by cases embedded <;> simp [herr]) steps 1 before
    (by omega) (fun i s hs => by rw [Nat.add_comm]; exact hrec i s hs) (Or.inl ⟨rfl, hsteps⟩)
  refine ⟨f, h1, ?_⟩
  have : (List.range' 1 steps.length).filter (fun k => decide (period ∣ k))
      = (List.range' 1 steps.length).filter fun k => decide (k % period = 0) := by
    apply List.filter_congr
    intro k _
    rw [decide_eq_decide]
    exact ⟨Nat.mod_eq_zero_of_dvd, Nat.dvd_of_mod_eq_zero⟩
  rw [this]
  simpa [written] using h2

/-- With pyrevolve checkpointing the first step has the number 0 (see C16): then the callback opens
a file that does not exist yet, or adds a group `0` to one that has it. -/
theorem C41_pyrevolve_violated (period : ℕ) (hper : 0 < period) (ms : List Meta) (embedded : Bool)
    (s : List Snap) (steps : List (List Snap)) :
    runFile period ms embedded 0 none (s :: steps) = .error .missing ∧
    ∀ f : File, "0" ∈ f.map Prod.fst →
      runFile period ms embedded 0 (some f) (s :: steps) = .error .nameTaken := by
  have hdue : due period 0 = .ok true := by
    unfold due
    rw [if_neg (by omega)]
    simp
  constructor
  · unfold runFile stepFile before
    rw [hdue]
    rfl
  · intro f hf
    have hc : ∀ m, createOne m embedded f (Nat.repr 0) = .error .nameTaken := by
      intro m
      rw [show Nat.repr 0 = "0" from rfl]
      unfold createOne create
      rw [if_pos (get_isSome.mpr hf)]
      rfl
    unfold runFile stepFile before
    rw [hdue]
    simp only [bind, Except.bind, openFile]
    simp [hc, bind, Except.bind]

/-- A quantity called `time` collides with the dataset of the time. -/
theorem C41_reserved_name_violated :
    ∃ m : Meta, m.quantities.map Quantity.name = ["time"] ∧
      ∀ f s steps, runFile 1 [m] false 1 f (s :: steps) = .error .nameTaken := by
  refine ⟨⟨none, 1, 0, [⟨"time", ⟨[1], [1], true, false, 0, 1, 0, 1⟩, none, none, some "y", none⟩],
    []⟩, rfl, fun f s steps => ?_⟩
  rfl

/-! ### C43 -/

section

variable {names : List String} {shape : String → List ℕ} {f : File} {ks : List ℕ} {t : ℕ → ℝ}
  {G : ℕ → String → ℕ → ℝ} {e : ℕ → Option ℝ}

/-- C43 for one quantity: reading a file gives the times and the values it holds, and errors against
the solution that starts from the values of group 0.

Missing: datasets without axes (`shape[0]` raises). -/
theorem C43_single_partial (h : FileHolds names shape f ks t G e) (hn : ks.Nodup) (h0 : 0 ∈ ks)
    {nm : String} (hnm : nm ∈ names) (hs : shape nm ≠ []) (sol : Solution) :
    ∃ time er res, readFile sol [nm] f = .ok (time, [(er, res)]) ∧
      (∀ k, time k = if k ∈ ks then some (t k) else none) ∧
      (∀ k, res k = if k ∈ ks then some (valuesOf (shape nm) (G k nm)) else none) ∧
      ∀ k, er k = if k ∈ ks then some (absDiff
        (sol.single (t k) (valuesOf (shape nm) (G 0 nm)) (t 0)) (valuesOf (shape nm) (G k nm)))
        else none := by
  obtain ⟨time, h1, h2⟩ := readTimes_ok h hn
  obtain ⟨er, res, h3, h4, h5⟩ := readQuantity_ok h hn h0 (sol := sol) (count := 1) (i := 0) hnm hs
    (time := time) (fun k hk => by rw [h2 k, if_pos hk])
    (ex := fun k => sol.single (t k) (valuesOf (shape nm) (G 0 nm)) (t 0))
    (fun k _ => by unfold expected; rw [if_neg (by omega)])
  refine ⟨time, er, res, ?_, h2, h5, h4⟩
  unfold readFile
  rw [h1]
  simp only [bind, Except.bind, List.zipIdx, List.mapM_cons, List.mapM_nil, List.length_singleton]
  rw [h3]
  rfl

/-- What the reader returns for several quantities: the errors are those against a solution for
which *every* quantity starts from the initial values of the current one. -/
theorem readFile_several (h : FileHolds names shape f ks t G e) (hn : ks.Nodup) (h0 : 0 ∈ ks)
    {qs : List String} (hqs : ∀ nm ∈ qs, nm ∈ names ∧ shape nm ≠ []) (hcount : 1 < qs.length)
    (sol : Solution) (hsol : ∀ tk x t0, x.length = qs.length →
      (sol.several tk x t0).length = qs.length) :
    ∃ time data, readFile sol qs f = .ok (time, data) ∧ data.length = qs.length ∧
      (∀ k, time k = if k ∈ ks then some (t k) else none) ∧
      ∀ i nm, qs[i]? = some nm → ∃ er res, data[i]? = some (er, res) ∧
        (∀ k, res k = if k ∈ ks then some (valuesOf (shape nm) (G k nm)) else none) ∧
        ∀ k, er k = if k ∈ ks then some (absDiff ((sol.several (t k)
          (List.replicate qs.length (valuesOf (shape nm) (G 0 nm))) (t 0)).getD i [])
            (valuesOf (shape nm) (G k nm))) else none := by
  obtain ⟨time, h1, h2⟩ := readTimes_ok h hn
  have hx : ∀ (i : ℕ) (k : ℕ) (x0 : List ℝ), i < qs.length →
      expected sol qs.length i (t 0) (t k) x0
        = some ((sol.several (t k) (List.replicate qs.length x0) (t 0)).getD i []) := by
    intro i k x0 hi
    unfold expected
    rw [if_pos hcount, List.getD_eq_getElem?_getD]
    have hlen := hsol (t k) (List.replicate qs.length x0) (t 0) (by simp)
    rw [List.getElem?_eq_getElem (by omega)]
    rfl
  obtain ⟨data, hd, hR⟩ := mapM_ok_of
    (g := fun p : String × ℕ => readQuantity sol qs.length f time p.2 p.1)
    (R := fun p (a : Dict (List ℝ) × Dict (List ℝ)) =>
      (∀ k, a.1 k = if k ∈ ks then some (absDiff ((sol.several (t k)
        (List.replicate qs.length (valuesOf (shape p.1) (G 0 p.1))) (t 0)).getD p.2 [])
          (valuesOf (shape p.1) (G k p.1))) else none) ∧
      ∀ k, a.2 k = if k ∈ ks then some (valuesOf (shape p.1) (G k p.1)) else none)
    qs.zipIdx (fun p hp => by
      have hp' := List.mem_zipIdx_iff_getElem?.mp hp
      have hlt := (List.getElem?_eq_some_iff.mp hp').1
      obtain ⟨hm1, hm2⟩ := hqs p.1 (List.mem_of_getElem? hp')
      obtain ⟨er, res, h3, h4, h5⟩ := readQuantity_ok h hn h0 (sol := sol) (count := qs.length)
        (i := p.2) hm1 hm2 (time := time) (fun k hk => by rw [h2 k, if_pos hk])
        (fun k _ => hx p.2 k _ hlt)
      exact ⟨(er, res), h3, h4, h5⟩)
  refine ⟨time, data, ?_, ?_, h2, ?_⟩
  · unfold readFile
    rw [h1]
    simp only [bind, Except.bind]
    rw [hd]
  · have := List.Forall₂.length_eq hR
    simpa using this.symm
  · intro i nm hi
    have hz : qs.zipIdx[i]? = some (nm, i) := by
      rw [List.getElem?_zipIdx, hi]
      simp
    obtain ⟨a, ha, hRa⟩ := forall₂_right hR hz
    exact ⟨a.1, a.2, ha, hRa.2, hRa.1⟩

/-- C43 for several quantities: times and values are as written. The errors are against the
solution from the file's initial values if all quantities have the same initial values.

Missing: different initial values (see below), datasets without axes. -/
theorem C43_several_partial (h : FileHolds names shape f ks t G e) (hn : ks.Nodup) (h0 : 0 ∈ ks)
    {qs : List String} (hqs : ∀ nm ∈ qs, nm ∈ names ∧ shape nm ≠ []) (hcount : 1 < qs.length)
    (sol : Solution) (hsol : ∀ tk x t0, x.length = qs.length →
      (sol.several tk x t0).length = qs.length) :
    ∃ time data, readFile sol qs f = .ok (time, data) ∧ data.length = qs.length ∧
      (∀ k, time k = if k ∈ ks then some (t k) else none) ∧
      ∀ i nm, qs[i]? = some nm → ∃ er res, data[i]? = some (er, res) ∧
        (∀ k, res k = if k ∈ ks then some (valuesOf (shape nm) (G k nm)) else none) ∧
        ((∀ nm' ∈ qs, valuesOf (shape nm') (G 0 nm') = valuesOf (shape nm) (G 0 nm)) →
          ∀ k, er k = if k ∈ ks then some (absDiff
            ((sol.several (t k) (qs.map fun nm' => valuesOf (shape nm') (G 0 nm')) (t 0)).getD i [])
            (valuesOf (shape nm) (G k nm))) else none) := by
  obtain ⟨time, data, h1, h2, h3, h4⟩ := readFile_several h hn h0 hqs hcount sol hsol
  refine ⟨time, data, h1, h2, h3, fun i nm hi => ?_⟩
  obtain ⟨er, res, h5, h6, h7⟩ := h4 i nm hi
  refine ⟨er, res, h5, h6, fun hsame k => ?_⟩
  rw [h7 k]
  have : List.replicate qs.length (valuesOf (shape nm) (G 0 nm))
      = qs.map fun nm' => valuesOf (shape nm') (G 0 nm') := by
    symm
    rw [List.eq_replicate_iff]
    refine ⟨by simp, fun b hb => ?_⟩
    obtain ⟨nm', hm, rfl⟩ := List.mem_map.mp hb
    exact hsame nm' hm
  rw [this]

/-- C43: the last local error is the one of the largest step, whatever the order of the names. -/
theorem C43_last_error (h : FileHolds names shape f ks t G e) {k : ℕ} (hk : k ∈ ks)
    (hmax : ∀ j ∈ ks, j ≤ k) {x : ℝ} (he : e k = some x) : readLastError f = .ok x := by
  have hkeys : (f.map fun a => parseKey a.1) = ks := by
    have : (f.map fun a => parseKey a.1) = (f.map Prod.fst).map parseKey := by
      rw [List.map_map]; rfl
    rw [this, h.keys, List.map_map]
    conv_rhs => rw [← List.map_id ks]
    apply List.map_congr_left
    intro k _
    exact parseKey_toString k
  obtain ⟨g, hg, hH⟩ := h.groups k hk
  obtain ⟨ds, hds, _, hc⟩ := hH.error x he
  unfold readLastError
  rw [hkeys, List.max?_eq_some_iff.mpr ⟨hk, hmax⟩]
  simp only [bind, Except.bind]
  unfold getE
  rw [hg]
  simp only
  rw [hds]
  simp only [hc]

end

/-- A file with the groups 0 and 1 of two quantities `x = 1, 2` and `y = 2, 1`. -/
noncomputable def swapFile : File :=
  [("0", [("time", ⟨[1], fun _ => 0⟩), ("x", ⟨[1], fun _ => 1⟩), ("y", ⟨[1], fun _ => 2⟩)]),
   ("1", [("time", ⟨[1], fun _ => 1⟩), ("x", ⟨[1], fun _ => 2⟩), ("y", ⟨[1], fun _ => 1⟩)])]

/-- The values in `swapFile`. -/
noncomputable def swapValues (k : ℕ) (nm : String) (_ : ℕ) : ℝ :=
  if (k = 0) = (nm = "x") then 1 else 2

theorem swapFile_holds : FileHolds ["x", "y"] (fun _ => [1]) swapFile [0, 1] (fun k => k)
    swapValues (fun _ => none) := by
  have key : ∀ (a b c : ℝ) (k : ℕ), a = k → (∀ p, b = swapValues k "x" p) →
      (∀ p, c = swapValues k "y" p) →
      Holds ["x", "y"] (fun _ => [1]) [("time", ⟨[1], fun _ => a⟩), ("x", ⟨[1], fun _ => b⟩),
        ("y", ⟨[1], fun _ => c⟩)] (k : ℝ) (swapValues k) none := by
    intro a b c k ha hb hc
    refine ⟨rfl, ⟨_, rfl, rfl, ha⟩, ?_, fun x hx => by cases hx⟩
    intro nm hnm
    simp only [List.mem_cons, List.not_mem_nil, or_false] at hnm
    rcases hnm with rfl | rfl
    · exact ⟨_, rfl, rfl, fun idx _ => hb _⟩
    · exact ⟨_, rfl, rfl, fun idx _ => hc _⟩
  refine ⟨rfl, ?_⟩
  intro k hk
  simp only [List.mem_cons, List.not_mem_nil, or_false] at hk
  rcases hk with rfl | rfl
  · exact ⟨_, rfl, key _ _ _ _ (by simp) (by simp [swapValues]) (by simp [swapValues])⟩
  · exact ⟨_, rfl, key _ _ _ _ (by simp) (by simp [swapValues]) (by simp [swapValues])⟩

/-- C43 does not hold for several quantities with different initial values: here the values in the
file agree with the given solution at all times, but the error reported for `x` at step 1 is 1. -/
theorem C43_several_violated :
    ∃ (sol : Solution) (f : File) (t : ℕ → ℝ) (G : ℕ → String → ℕ → ℝ),
      FileHolds ["x", "y"] (fun _ => [1]) f [0, 1] t G (fun _ => none) ∧
      (∀ k ∈ [0, 1], sol.several (t k) [valuesOf [1] (G 0 "x"), valuesOf [1] (G 0 "y")] (t 0)
        = [valuesOf [1] (G k "x"), valuesOf [1] (G k "y")]) ∧
      ∃ time er res rest, readFile sol ["x", "y"] f = .ok (time, (er, res) :: rest) ∧
        er 1 = some [1] := by
  classical
  let sol : Solution := ⟨fun _ x _ => x, fun tk x t0 => if tk = t0 then x else x.reverse⟩
  refine ⟨sol, swapFile, fun k => k, swapValues, swapFile_holds, ?_, ?_⟩
  · intro k hk
    simp only [List.mem_cons, List.not_mem_nil, or_false] at hk
    rcases hk with rfl | rfl
    · simp [sol]
    · simp [sol, valuesOf, swapValues]
  · obtain ⟨time, data, h1, h2, _, h4⟩ := readFile_several swapFile_holds (by decide) (by simp)
      (qs := ["x", "y"]) (by simp) (by simp) sol (by
        intro tk x t0 hx
        simp only [sol]
        split_ifs
        · exact hx
        · simpa using hx)
    obtain ⟨er, res, h5, _, h7⟩ := h4 0 "x" rfl
    cases data with
    | nil => simp at h2
    | cons a rest =>
      simp only [List.getElem?_cons_zero, Option.some.injEq] at h5
      refine ⟨time, er, res, rest, by rw [h1, h5], ?_⟩
      rw [h7 1]
      norm_num [sol, valuesOf, swapValues, absDiff]

/-- Datasets without axes cannot be read. -/
theorem C43_no_axes_violated :
    ∃ f : File, FileHolds ["x"] (fun _ => []) f [0] (fun _ => 0) (fun _ _ _ => 1) (fun _ => none) ∧
      ∀ sol, readFile sol ["x"] f = .error .index := by
  refine ⟨[("0", [("time", ⟨[1], fun _ => 0⟩), ("x", ⟨[], fun _ => 1⟩)])], ⟨rfl, ?_⟩, fun sol => ?_⟩
  · intro k hk
    have : k = 0 := by simpa using hk
    subst this
    refine ⟨_, rfl, rfl, ⟨_, rfl, rfl, rfl⟩, ?_, fun x hx => by cases hx⟩
    intro nm hnm
    have : nm = "x" := by simpa using hnm
    subst this
    exact ⟨_, rfl, rfl, fun _ _ => rfl⟩
  · simp [readFile, readTimes, sortedItems, getE, File.get, bind, Except.bind, List.zipIdx,
      readQuantity, readOne, pure, Except.pure]

/-! ### Concrete cases -/

namespace FileEx

/-- The variables of `exampleProblem`. -/
def vars (nm : String) : Var :=
  if nm = "x" then ⟨"x_up", .output, ["x", "stage_output_var"], [5], [some [2], some [3]]⟩
  else ⟨"y_up", .output, ["y", "stage_output_var"], [2, 2], [none, some [2, 2]]⟩

/-- The metadata of both ranks. -/
def metas : List Meta := (setup exampleProblem 2 ["x", "y"] []).toOption.getD []

theorem setup_ok : setup exampleProblem 2 ["x", "y"] [] = .ok metas := by decide +kernel

theorem ordinary : ∀ nm ∈ ["x", "y"], Ordinary exampleProblem nm (vars nm) := by
  intro nm hnm
  simp only [List.mem_cons, List.not_mem_nil, or_false] at hnm
  rcases hnm with rfl | rfl
  · constructor <;> decide
  · constructor <;> decide

theorem rows : Rows 2 (vars "x") [2, 3] [] := by
  constructor <;> decide

theorem whole : Whole 2 (vars "y") := by
  unfold Whole
  decide

/-- `x` has the values `k, k + 1, ...` after step `k`, `y` the values `-k, -k - 1, ...`. -/
noncomputable def values (k : ℕ) (nm : String) (p : ℕ) : ℝ := if nm = "x" then k + p else -k - p

/-- The states of the ranks after step `k + 1`. -/
noncomputable def snaps (k : ℕ) : List Snap :=
  [⟨k, values k "x", k + 1, values (k + 1) "x", none⟩,
   ⟨k, fun i => if i < 3 then values k "x" (2 + i) else values k "y" (i - 3), k + 1,
    fun i => if i < 3 then values (k + 1) "x" (2 + i) else values (k + 1) "y" (i - 3), none⟩]

theorem metas_eq : metas.map (fun m => m.quantities.map fun q =>
    (q.name, q.arr.shape, q.arr.start, q.arr.globalStart)) =
    [[("x", [2], 0, 0), ("y", [0], 0, 0)], [("x", [3], 0, 2), ("y", [2, 2], 3, 0)]] := by
  decide +kernel

theorem held (k : ℕ) (xs : List (ℕ → ℝ)) (hxs : xs = [values k "x",
    fun i => if i < 3 then values k "x" (2 + i) else values k "y" (i - 3)]) :
    Held metas xs (values k) := by
  have hm : ∃ a b, metas = [a, b] := ⟨metas.headD {}, metas.getD 1 {}, by decide +kernel⟩
  obtain ⟨a, b, hab⟩ := hm
  have he := metas_eq
  rw [hab] at he ⊢
  simp only [List.map_cons, List.map_nil, List.cons.injEq, and_true] at he
  have part : ∀ (m : Meta) (l : List (String × List ℕ × ℕ × ℕ)) (x : ℕ → ℝ),
      (m.quantities.map fun q => (q.name, q.arr.shape, q.arr.start, q.arr.globalStart)) = l →
      (∀ c ∈ l, ∀ p < c.2.1.prod, x (c.2.2.1 + p) = values k c.1 (c.2.2.2 + p)) →
      ∀ q ∈ m.quantities, ∀ p < q.arr.shape.prod,
        x (q.arr.start + p) = values k q.name (q.arr.globalStart + p) := by
    intro m l x hl h q hq p hp
    exact h (q.name, q.arr.shape, q.arr.start, q.arr.globalStart)
      (by rw [← hl]; exact List.mem_map_of_mem (f := fun q : Quantity =>
        (q.name, q.arr.shape, q.arr.start, q.arr.globalStart)) hq) p hp
  rw [hxs]
  refine .cons (part a _ _ he.1 ?_) (.cons (part b _
    (fun i => if i < 3 then values k "x" (2 + i) else values k "y" (i - 3)) he.2 ?_) .nil)
  · intro c hc p hp
    simp only [List.mem_cons, List.not_mem_nil, or_false] at hc
    rcases hc with rfl | rfl
    · simp
    · simp at hp
  · intro c hc p hp
    simp only [List.mem_cons, List.not_mem_nil, or_false] at hc
    rcases hc with rfl | rfl
    · have : p < 3 := by simpa using hp
      simp [this]
    · simp

theorem recorded (i : ℕ) : Recorded metas (fun k => k) values
    (fun _ => if false then some (0 : ℝ) else none) (i + 1) (snaps i) := by
  refine ⟨?_, ?_, ?_, ?_, ?_⟩
  · intro h s hs
    have : i = 0 := by omega
    subst this
    simp only [snaps, List.mem_cons, List.not_mem_nil, or_false] at hs
    rcases hs with rfl | rfl <;> rfl
  · intro h
    have : i = 0 := by omega
    subst this
    exact held 0 _ rfl
  · intro s hs
    simp only [snaps, List.mem_cons, List.not_mem_nil, or_false] at hs
    rcases hs with rfl | rfl <;> simp
  · exact held (i + 1) _ rfl
  · intro s hs
    simp only [snaps, List.mem_cons, List.not_mem_nil, or_false] at hs
    rcases hs with rfl | rfl <;> rfl

end FileEx

open FileEx in
/-- Two ranks, seven steps, every third one written. -/
example : ∃ f, runFile 3 metas false 1 none ((List.range 7).map snaps) = .ok (some f) ∧
    f.map Prod.fst = ["0", "3", "6"] ∧
    ∃ g ds, File.get f "6" = some g ∧ File.get g "x" = some ds ∧ ds.cell [4] = 10 := by
  obtain ⟨f, h1, h2⟩ := C41_file_partial setup_ok (by omega) (names := ["x", "y"]) (vars := vars)
    (by decide +kernel) (by decide) (by decide) (by decide) ordinary
    (by
      intro nm hnm
      simp only [List.mem_cons, List.not_mem_nil, or_false] at hnm
      rcases hnm with rfl | rfl
      · exact Or.inr ⟨_, _, rows⟩
      · exact Or.inl whole)
    (period := 3) (by omega) (embedded := false) (t := fun k => k) (G := values)
    (err := fun _ => 0) rfl ((List.range 7).map snaps) (by simp)
    (by
      intro i s hs
      rw [List.getElem?_map, Option.map_eq_some_iff] at hs
      obtain ⟨j, hj, rfl⟩ := hs
      have : j = i := by
        rw [List.getElem?_eq_some_iff] at hj
        obtain ⟨_, hj⟩ := hj
        simpa using hj.symm
      subst this
      exact recorded j) none
  refine ⟨f, h1, by rw [h2.keys]; decide +kernel, ?_⟩
  obtain ⟨g, hg, hH⟩ := h2.groups 6 (by decide +kernel)
  obtain ⟨ds, hds, hsh, hv⟩ := hH.values "x" (by simp)
  refine ⟨g, ds, hg, hds, ?_⟩
  rw [hv [4] (.cons (by decide) .nil)]
  norm_num [values, vars, ravel]

open FileEx in
example : ∃! r, Writes metas "x" r [3] :=
  C42_disjoint_cover setup_ok (ordinary "x" (by simp)) rows (by decide +kernel) [3]
    (.cons (by decide) .nil)

open FileEx in
-- the second rank has the rows 2, 3, 4
example (i : ℕ) (hi : i < 5) : Writes metas "x" 1 [i] ↔ 2 ≤ i ∧ i < 5 := by
  have hm : ∃ m, metas[1]? = some m ∧ "x" ∈ m.quantities.map Quantity.name :=
    ⟨metas.getD 1 {}, by decide +kernel, by decide +kernel⟩
  obtain ⟨m, hm, hx⟩ := hm
  exact C42_own_rows setup_ok (ordinary "x" (by simp)) rows hm hx i [] (.cons hi .nil)

-- the file of two quantities read one at a time
example (sol : Solution) : ∃ time er res, readFile sol ["y"] swapFile = .ok (time, [(er, res)]) ∧
    time 1 = some 1 ∧ res 1 = some [1] := by
  obtain ⟨time, er, res, h1, h2, h3, _⟩ := C43_single_partial swapFile_holds (by decide) (by simp)
    (nm := "y") (by simp) (by simp) sol
  refine ⟨time, er, res, h1, by rw [h2]; simp, by rw [h3]; simp [valuesOf, swapValues]⟩

-- groups 2, 9 and 10: the last error is that of 10 although "9" is the last name
example : readLastError [("0", [("error_measure", ⟨[1], fun _ => 0⟩)]),
    ("10", [("error_measure", ⟨[1], fun _ => 5⟩)]), ("9", [("error_measure", ⟨[1], fun _ => 7⟩)])]
      = .ok 5 := by
  rfl

end Verif.Props
