/-
The metadata of the ranks place the quantities as the file writer needs it.
-/
import Verif.File.Lemmas
import Verif.Props.Metadata
import Verif.OpenMDAO.NormLemmas

namespace Verif.File

open Verif.Metadata Verif.Props

/-- A variable is on some of the ranks as a whole, with at least one of them. -/
def Whole (n : ℕ) (v : Var) : Prop :=
  (∃ r < n, v.shapeAt r = some v.globalShape) ∧
    ∀ r < n, v.shapeAt r = none ∨ v.shapeAt r = some v.globalShape

/-- A variable is distributed over the ranks along its first axis, with `ns` rows on the ranks.
Ranks without rows need not know the variable. -/
structure Rows (n : ℕ) (v : Var) (ns : List ℕ) (rest : List ℕ) : Prop where
  ranks : ns.length = n
  shapes : v.shapes.length = n
  global : v.globalShape = ns.sum :: rest
  loc : ∀ r < n, v.shapeAt r = some (ns.getD r 0 :: rest) ∨ (v.shapeAt r = none ∧ ns.getD r 0 = 0)

/-- The quantity of a rank. -/
theorem rank_quantity {P : Problem} {n : ℕ} {req ind : List String} {ms : List Meta}
    (h : setup P n req ind = .ok ms) {r : ℕ} {m : Meta} (hr : ms[r]? = some m) {q : Quantity}
    (hq : q ∈ m.quantities) {v : Var} (hv : Ordinary P q.name v) :
    q.arr.globalShape = v.globalShape ∧
      ((v.shapeAt r = some q.arr.shape ∧
        (q.arr.shape = v.globalShape → q.arr.globalStart = 0 ∧
          q.arr.globalStop = q.arr.shape.prod) ∧
        (q.arr.shape ≠ v.globalShape → q.arr.globalStart = (v.sizes.take r).sum ∧
          q.arr.globalStop = (v.sizes.take r).sum + v.sizes.getD r 0)) ∨
       (v.shapeAt r = none ∧ q.arr.shape = [0])) := by
  obtain ⟨m0, hm0, _, _, _, _, ⟨g, hg⟩, _⟩ := setup_rank h hr
  obtain ⟨_, recs, _⟩ := rankMetadata_ok hm0
  obtain ⟨j, hj⟩ := List.mem_iff_getElem?.mp hq
  rw [hg, List.getElem?_mapIdx] at hj
  obtain ⟨Q, hQ, rfl⟩ := Option.map_eq_some_iff.mp hj
  simp only at hv ⊢
  obtain ⟨w, hw, hone, hv'⟩ := forall2_getElem? recs j Q hQ
  have hwmem := List.mem_of_getElem? hw
  obtain ⟨hwP, hwio, hwt⟩ := mem_ioMetadata_none.mp hwmem
  have hQw : Q.name ∈ w.tags := by
    have : Q.name ∈ req.dedup.filter (fun t => w.tags.contains t) := by rw [hone]; simp
    simpa using (List.mem_filter.mp this).2
  have hwv : w = v := hv.onlyOutput w hwP hwio hQw
  subst hwv
  rcases hv' with ⟨hloc, s, s', he⟩ | ⟨hloc, he⟩
  · obtain ⟨_, hl, _, _, _, ⟨x, hx, hxq, hxo, hxs, hxsh, hxc⟩, _⟩ := extractQuantity_ok he
    have hxv : x = w := hv.onlyRole x hx hxq (by simpa [isOut] using hxo)
    subst hxv
    refine ⟨(createLocal_ok hxc).2.1, Or.inl ⟨hxsh, ?_, ?_⟩⟩
    · intro hs
      unfold createLocal at hxc
      rw [if_neg (not_not.mpr hs)] at hxc
      simp only [Except.ok.injEq] at hxc
      exact ⟨by rw [← hxc], by rw [← hxc]⟩
    · intro hs
      unfold createLocal at hxc
      rw [if_pos hs, outputSizes_eq hx hv.out hv.names] at hxc
      simp only [Except.ok.injEq] at hxc
      exact ⟨by rw [← hxc], by rw [← hxc]⟩
  · have hnone : w.shapeAt r = none := by
      by_contra hne
      have hsome : (w.shapeAt r).isSome = true := by
        cases hs : w.shapeAt r with
        | none => exact absurd hs hne
        | some _ => rfl
      have : (ioMetadata P (some .output) req (some r)).any (fun x => x.name == w.name) = true :=
        List.any_eq_true.mpr ⟨w, mem_ioMetadata_some.mpr ⟨hwmem, hsome⟩, by simp⟩
      rw [this] at hloc
      cases hloc
    exact ⟨by rw [he], Or.inr ⟨hnone, by rw [he]⟩⟩

theorem Rows.sizes {n : ℕ} {v : Var} {ns rest : List ℕ} (h : Rows n v ns rest) :
    v.sizes = ns.map fun a => a * rest.prod := by
  apply List.ext_getElem?
  intro r
  unfold Var.sizes
  rw [List.getElem?_map, List.getElem?_map]
  by_cases hr : r < n
  · have h1 := h.loc r hr
    unfold Var.shapeAt at h1
    have e1 : r < v.shapes.length := by rw [h.shapes]; exact hr
    have e2 : r < ns.length := by rw [h.ranks]; exact hr
    rw [List.getD_eq_getElem?_getD, List.getD_eq_getElem?_getD] at h1
    simp only [List.getElem?_eq_getElem e1, List.getElem?_eq_getElem e2, Option.getD_some,
      Option.map_some, Option.some.injEq] at h1 ⊢
    rcases h1 with h1 | ⟨h1, h2⟩
    · rw [h1]; simp [entries]
    · rw [h1, h2]; simp [entries]
  · rw [List.getElem?_eq_none (by rw [h.shapes]; omega),
      List.getElem?_eq_none (by rw [h.ranks]; omega)]
    rfl

theorem sum_map_mul (l : List ℕ) (p : ℕ) : (l.map fun a => a * p).sum = l.sum * p := by
  induction l with
  | nil => simp
  | cons a l ih => simp [ih, Nat.add_mul]

theorem take_add_le (l : List ℕ) : ∀ r, (l.take r).sum + l.getD r 0 ≤ l.sum := by
  induction l with
  | nil => intro r; simp
  | cons a l ih =>
    intro r
    cases r with
    | zero => simp
    | succ r =>
      have := ih r
      simp only [List.take_succ_cons, List.sum_cons, List.getD_cons_succ]
      omega

/-- The range of a rank's rows. -/
theorem rows_range {P : Problem} {n : ℕ} {req ind : List String} {ms : List Meta}
    (h : setup P n req ind = .ok ms) {r : ℕ} {m : Meta} (hr : ms[r]? = some m) {q : Quantity}
    (hq : q ∈ m.quantities) {v : Var} (hv : Ordinary P q.name v) {ns rest : List ℕ}
    (hrows : Rows n v ns rest) (h0 : 0 ∉ q.arr.shape) :
    q.arr.shape = ns.getD r 0 :: rest ∧ q.arr.globalStart = (ns.take r).sum * rest.prod ∧
      q.arr.globalStop = ((ns.take r).sum + ns.getD r 0) * rest.prod := by
  have hrn : r < n := by
    obtain ⟨_, _, hlt, _⟩ := setup_rank h hr
    exact hlt
  obtain ⟨_, ⟨hs, he, hd⟩ | ⟨_, hs⟩⟩ := rank_quantity h hr hq hv
  · rcases hrows.loc r hrn with hl | ⟨hl, _⟩
    · rw [hl] at hs
      have hshape : q.arr.shape = ns.getD r 0 :: rest := (Option.some.inj hs).symm
      refine ⟨hshape, ?_⟩
      by_cases hsame : q.arr.shape = v.globalShape
      · obtain ⟨e1, e2⟩ := he hsame
        rw [hshape, hrows.global, List.cons.injEq] at hsame
        have hle := take_add_le ns r
        have hz : (ns.take r).sum = 0 := by omega
        rw [e1, e2, hz, hshape]
        simp
      · obtain ⟨e1, e2⟩ := hd hsame
        rw [hrows.sizes, ← List.map_take, sum_map_mul] at e1 e2
        refine ⟨e1, e2.trans ?_⟩
        rw [Nat.add_mul]
        congr 1
        rw [List.getD_eq_getElem?_getD, List.getD_eq_getElem?_getD, List.getElem?_map]
        cases ns[r]? <;> simp
    · rw [hl] at hs; cases hs
  · rw [hs] at h0
    exact absurd (by simp) h0

theorem layout_of_setup {P : Problem} {n : ℕ} {req ind : List String} {ms : List Meta}
    (h : setup P n req ind = .ok ms) (hn : 0 < n) {names : List String} {vars : String → Var}
    (hnames : (ms.headD {}).quantities.map Quantity.name = names) (hnd : names.Nodup)
    (ht : "time" ∉ names) (he : "error_measure" ∉ names)
    (hord : ∀ nm ∈ names, Ordinary P nm (vars nm))
    (hpl : ∀ nm ∈ names, Whole n (vars nm) ∨ ∃ ns rest, Rows n (vars nm) ns rest) :
    Layout ms names fun nm => (vars nm).globalShape := by
  have hlen : ms.length = n := by
    obtain ⟨ms0, _, rfl, hl, _⟩ := setup_ok h
    unfold addDistributivity
    simpa using hl
  have hhead : ms[0]? = some (ms.headD {}) := by
    cases ms with
    | nil => simp at hlen; omega
    | cons a l => simp
  have hsame : ∀ m ∈ ms, m.quantities.map Quantity.name = names := by
    intro m hm
    obtain ⟨r, hr⟩ := List.mem_iff_getElem?.mp hm
    rw [← hnames]
    exact Verif.OM.setup_names h hr hhead
  have hmem : ∀ m ∈ ms, ∀ q ∈ m.quantities, q.name ∈ names := fun m hm q hq => by
    rw [← hsame m hm]; exact List.mem_map_of_mem hq
  refine ⟨?_, hsame, hnd, ht, he, ?_, ?_, ?_, ?_⟩
  · intro hc
    rw [hc] at hlen
    simp at hlen
    omega
  · intro m hm q hq
    obtain ⟨r, hr⟩ := List.mem_iff_getElem?.mp hm
    exact (rank_quantity h hr hq (hord _ (hmem m hm q hq))).1
  · intro m hm q hq h0
    obtain ⟨r, hr⟩ := List.mem_iff_getElem?.mp hm
    have hrn : r < n := by
      obtain ⟨_, _, hlt, _⟩ := setup_rank h hr
      exact hlt
    have ho := hord _ (hmem m hm q hq)
    obtain ⟨hg, hq'⟩ := rank_quantity h hr hq ho
    rcases hpl _ (hmem m hm q hq) with ⟨_, hw⟩ | ⟨ns, rest, hrows⟩
    · rcases hq' with ⟨hs, he', _⟩ | ⟨_, hs⟩
      · rcases hw r hrn with hw | hw
        · rw [hw] at hs; cases hs
        · rw [hw] at hs
          have hs' : q.arr.shape = (vars q.name).globalShape := (Option.some.inj hs).symm
          obtain ⟨e1, e2⟩ := he' hs'
          exact block_whole (by rw [hg, hs']) h0 e1 (by rw [e2, hg, hs'])
      · rw [hs] at h0
        exact absurd (by simp) h0
    · obtain ⟨e0, e1, e2⟩ := rows_range h hr hq ho hrows h0
      rw [e0] at h0
      simp only [List.mem_cons, not_or] at h0
      exact ⟨_, block_rows e0 (hg.trans hrows.global) (Nat.pos_of_ne_zero fun h => h0.1 h.symm)
        h0.2 (take_add_le ns r) e1 e2⟩
  · intro m hm q hq h0
    obtain ⟨r, hr⟩ := List.mem_iff_getElem?.mp hm
    have hrn : r < n := by
      obtain ⟨_, _, hlt, _⟩ := setup_rank h hr
      exact hlt
    have ho := hord _ (hmem m hm q hq)
    obtain ⟨hg, hq'⟩ := rank_quantity h hr hq ho
    rcases hpl _ (hmem m hm q hq) with ⟨_, hw⟩ | ⟨ns, rest, hrows⟩
    · rcases hq' with ⟨hs, he', _⟩ | ⟨_, hs⟩
      · rcases hw r hrn with hw | hw
        · rw [hw] at hs; cases hs
        · rw [hw] at hs
          have hs' : q.arr.shape = (vars q.name).globalShape := (Option.some.inj hs).symm
          obtain ⟨e1, e2⟩ := he' hs'
          rw [e1, e2]; simp
      · rw [hs] at h0
        exact absurd (by simp) h0
    · obtain ⟨e0, e1, e2⟩ := rows_range h hr hq ho hrows h0
      rw [e0, e1, e2, List.prod_cons, Nat.add_mul]
  · intro nm hnm k hk
    have find : ∀ r < n, ∃ m ∈ ms, ms[r]? = some m ∧ ∃ q ∈ m.quantities, q.name = nm := by
      intro r hr
      have hr' : r < ms.length := by omega
      refine ⟨ms[r], List.getElem_mem hr', List.getElem?_eq_getElem hr', ?_⟩
      rw [← hsame _ (List.getElem_mem hr')] at hnm
      obtain ⟨q, hq, e⟩ := List.mem_map.mp hnm
      exact ⟨q, hq, e⟩
    rcases hpl nm hnm with ⟨⟨r, hrn, hr1⟩, _⟩ | ⟨ns, rest, hrows⟩
    · obtain ⟨m, hm, hr, q, hq, rfl⟩ := find r hrn
      obtain ⟨hg, ⟨hs, he', _⟩ | ⟨hs, _⟩⟩ := rank_quantity h hr hq (hord _ hnm)
      · rw [hr1] at hs
        have hs' : q.arr.shape = (vars q.name).globalShape := (Option.some.inj hs).symm
        obtain ⟨e1, e2⟩ := he' hs'
        refine ⟨m, hm, q, hq, rfl, ?_, by omega, by rw [e2, hs']; exact hk⟩
        intro h0
        rw [← hs', List.prod_eq_zero h0] at hk
        omega
      · rw [hr1] at hs; cases hs
    · rw [hrows.global, List.prod_cons] at hk
      have hp : 0 < rest.prod := by
        rcases Nat.eq_zero_or_pos rest.prod with h0 | h0
        · rw [h0] at hk; omega
        · exact h0
      have hkd : k / rest.prod < ns.sum := Nat.div_lt_of_lt_mul (by rw [Nat.mul_comm]; exact hk)
      obtain ⟨r, ⟨h1, h2, h3⟩, _⟩ := prefix_unique ns (k / rest.prod) hkd
      have hrn : r < n := by rw [← hrows.ranks]; exact h1
      obtain ⟨m, hm, hr, q, hq, rfl⟩ := find r hrn
      have hpos : 0 < ns.getD r 0 := by omega
      have h0 : 0 ∉ q.arr.shape := by
        obtain ⟨_, ⟨hs, _⟩ | ⟨hs, _⟩⟩ := rank_quantity h hr hq (hord _ hnm)
        · rcases hrows.loc r hrn with hl | ⟨hl, _⟩
          · rw [hl] at hs
            rw [← Option.some.inj hs]
            simp only [List.mem_cons, not_or]
            refine ⟨by omega, fun hc => ?_⟩
            rw [List.prod_eq_zero hc] at hp
            omega
          · rw [hl] at hs; cases hs
        · rcases hrows.loc r hrn with hl | ⟨_, hz⟩
          · rw [hl] at hs; cases hs
          · omega
      obtain ⟨_, e1, e2⟩ := rows_range h hr hq (hord _ hnm) hrows h0
      refine ⟨m, hm, q, hq, rfl, h0, ?_, ?_⟩
      · rw [e1]
        exact (Nat.le_div_iff_mul_le hp).mp h2
      · rw [e2]
        exact (Nat.div_lt_iff_lt_mul hp).mp h3

end Verif.File
