/-
C60, C62-C64: result files and parameters of convergence studies.
-/
import Verif.Problems.Lemmas
import Verif.Tableau.Shipped
import Mathlib.Data.List.TakeWhile
import Mathlib.Tactic.NormNum

namespace Verif.Props

open Verif.Problems

/-! ### C60 -/

/-- What two names of schemes are compared by: commas do not count, blanks and underscores are the
same, and so are upper and lower case letters. -/
def nameKey (s : Str) : Str := (s.filter fun c => c ≠ ',').map fun c => (if c = ' ' then '_' else c).toLower

theorem sanitize_eq_nameKey (s : Str) : sanitize s = nameKey s := by
  induction s with
  | nil => rfl
  | cons c s ih =>
    rw [sanitize_cons, ih]
    by_cases h1 : c = ' '
    · subst h1; rfl
    · by_cases h2 : c = ','
      · subst h2; rfl
      · simp [sanitize, nameKey, h1, h2]

/-- The decimal number `m * 10 ^ e` with one digit `m` that `x` is close to (as floating point
numbers are that were entered with one digit). -/
def CloseTo (x : ℚ) (m : ℕ) (e : ℤ) : Prop :=
  1 ≤ m ∧ m ≤ 9 ∧ |x - m * 10 ^ e| < 10 ^ e / 20

theorem CloseTo.pos {x : ℚ} {m : ℕ} {e : ℤ} (h : CloseTo x m e) : 0 < x := by
  obtain ⟨h1, -, h3⟩ := h
  have hp : (0 : ℚ) < 10 ^ e := zpow_pos (by norm_num) _
  have hm : (1 : ℚ) ≤ m := by exact_mod_cast h1
  have := (abs_lt.mp h3).1
  nlinarith

theorem CloseTo.sci {x : ℚ} {m : ℕ} {e : ℤ} (h : CloseTo x m e) : sci |x| = (m, e) := by
  rw [abs_of_pos h.pos]
  exact sci_of_near h.1 h.2.1 h.2.2

theorem file_inj {a b : Str} (h : a ++ ".h5".toList = b ++ ".h5".toList) : a = b :=
  List.append_cancel_right h

/-- C60, the part that holds. Two runs with names of schemes without slashes are written to
different files if the folders of the problems differ, or the names differ in more than case,
commas, and blanks for underscores, or the kinds of run differ, or - for runs with a fixed step
size - the step sizes are close to different decimal numbers with one digit, or differ by a factor
of more than three.

Missing: schemes with equal names, step sizes that agree in the first digit, stiffness, controllers
and measurers; for them the property is violated, see below. -/
theorem C60_distinct_partial (a b : Experiment) (ha : '/' ∉ a.butcher) (hb : '/' ∉ b.butcher) :
    ((∃ s, a.kind = .str s ∧ (s = "adaptive".toList ∨ s = "avg_homogeneous".toList)) ∨
        (∃ x, a.kind = .num x) ↔ ∃ p, a.file = .ok p) ∧
    (a.folder ≠ b.folder ∨ nameKey a.butcher ≠ nameKey b.butcher ∨
      (∃ s t, a.kind = .str s ∧ b.kind = .str t ∧ s ≠ t) ∨
      (∃ s x, a.kind = .str s ∧ b.kind = .num x) ∨
      (∃ x m e y m' e', a.kind = .num x ∧ b.kind = .num y ∧ CloseTo x m e ∧ CloseTo y m' e' ∧
        (m, e) ≠ (m', e')) ∨
      (∃ x y, a.kind = .num x ∧ b.kind = .num y ∧ 0 < x ∧ 3 * x < y) →
      ∀ p, a.file = .ok p → b.file ≠ .ok p) := by
  have key : ∀ (c : Experiment) (p : Path), '/' ∉ c.butcher → c.file = .ok p →
      (∃ s, c.kind = .str s ∧ (s = sAdaptive ∨ s = sAverage) ∧
        p = c.folder ++ [s, nameKey c.butcher ++ ".h5".toList]) ∨
      (∃ x, c.kind = .num x ∧ p = c.folder ++ [sFixed,
        ("data_".toList ++ sanitize (fmtE x) ++ '_' :: nameKey c.butcher) ++ ".h5".toList]) := by
    intro c p hc h
    unfold Experiment.file at h
    cases hk : c.kind with
    | str s =>
      rw [hk] at h
      by_cases hs : s = sAdaptive ∨ s = sAverage
      · rw [path_str hs hc, sanitize_eq_nameKey] at h
        cases h
        exact Or.inl ⟨s, rfl, hs, rfl⟩
      · rw [not_or] at hs
        unfold getFilePath at h
        dsimp only at h
        rw [if_pos hs] at h
        cases h
    | num x =>
      rw [hk, path_num hc, sanitize_eq_nameKey c.butcher] at h
      cases h
      exact Or.inr ⟨x, rfl, rfl⟩
    | other =>
      rw [hk] at h
      cases h
  have dF : sFixed ≠ sAdaptive ∧ sFixed ≠ sAverage := by decide
  refine ⟨⟨?_, ?_⟩, ?_⟩
  · rintro (⟨s, hk, hs⟩ | ⟨x, hk⟩)
    · exact ⟨_, by unfold Experiment.file; rw [hk, path_str hs ha]⟩
    · exact ⟨_, by unfold Experiment.file; rw [hk, path_num ha]⟩
  · rintro ⟨p, hp⟩
    rcases key a p ha hp with ⟨s, hk, hs, -⟩ | ⟨x, hk, -⟩
    · exact Or.inl ⟨s, hk, hs⟩
    · exact Or.inr ⟨x, hk⟩
  · intro hd p hpa hpb
    rcases key a p ha hpa with ⟨s, hk, hs, e1⟩ | ⟨x, hk, e1⟩ <;>
      rcases key b p hb hpb with ⟨t, hk', ht, e2⟩ | ⟨y, hk', e2⟩
    · rw [e1] at e2
      obtain ⟨q1, q2, q3⟩ := append_two_inj e2
      rcases hd with h | h | ⟨_, _, g1, g2, h⟩ | ⟨_, _, _, g2⟩ | ⟨_, _, _, _, _, _, g1, _⟩ | ⟨_, _, g1, _⟩
      · exact h q1
      · exact h (file_inj q3)
      · rw [hk] at g1; rw [hk'] at g2
        cases g1; cases g2
        exact h q2
      · rw [hk'] at g2; cases g2
      · rw [hk] at g1; cases g1
      · rw [hk] at g1; cases g1
    · rw [e1] at e2
      obtain ⟨-, q2, -⟩ := append_two_inj e2
      rcases hs with h | h
      · exact dF.1 (q2.symm.trans h)
      · exact dF.2 (q2.symm.trans h)
    · rw [e1] at e2
      obtain ⟨-, q2, -⟩ := append_two_inj e2
      rcases ht with h | h
      · exact dF.1 (q2.trans h)
      · exact dF.2 (q2.trans h)
    · rw [e1] at e2
      obtain ⟨q1, -, q3⟩ := append_two_inj e2
      have q4 := file_inj q3
      rw [List.append_assoc, List.append_assoc] at q4
      obtain ⟨q5, q6⟩ := append_cons_inj underscore_notMem underscore_notMem
        (List.append_cancel_left q4)
      rw [sanitize_plain fun c => plain_fmtE, sanitize_plain fun c => plain_fmtE] at q5
      have q7 := fmtE_inj (map_low_inj (fun c => plain_fmtE) (fun c => plain_fmtE) q5)
      rcases hd with h | h | ⟨_, _, g1, g2, h⟩ | ⟨_, _, g1, g2⟩ |
        ⟨x', m, e, y', m', e', g1, g2, h, h', hne⟩ | ⟨x', y', g1, g2, h, h'⟩
      · exact h q1
      · exact h q6
      · rw [hk] at g1; cases g1
      · rw [hk] at g1; cases g1
      · rw [hk] at g1; rw [hk'] at g2
        cases g1; cases g2
        rcases q7 with ⟨q7, -⟩ | ⟨-, -, -, q7⟩
        · exact h.pos.ne' q7
        · rw [h.sci, h'.sci] at q7
          exact hne q7
      · rw [hk] at g1; rw [hk'] at g2
        cases g1; cases g2
        rcases q7 with ⟨q7, -⟩ | ⟨-, -, -, q7⟩
        · exact h.ne' q7
        · have hy : 0 < y := by linarith
          rw [abs_of_pos h, abs_of_pos hy] at q7
          obtain ⟨c1, -, c3⟩ := sci_near h
          obtain ⟨-, -, d3⟩ := sci_near hy
          rw [← q7] at d3
          have hp : (0 : ℚ) < 10 ^ (Verif.Problems.sci x).2 := zpow_pos (by norm_num) _
          have hm : (1 : ℚ) ≤ (Verif.Problems.sci x).1 := by exact_mod_cast c1
          have := (abs_le.mp c3).1
          have := (abs_le.mp d3).2
          nlinarith

/-- The file does not depend on stiffness, controllers and measurer: runs that differ only there
overwrite each other. -/
theorem C60_parameters_violated (a : Experiment) (stiffness : ℚ) (controllers : List ℕ)
    (measurer : ℕ) :
    ({ a with stiffness := stiffness, controllers := controllers,
              measurer := measurer } : Experiment).file = a.file := rfl

/-- Fixed step sizes that are close to the same decimal number with one digit share a file, whatever
problem and scheme. -/
theorem C60_step_violated {x y : ℚ} {m : ℕ} {e : ℤ} (hx : CloseTo x m e) (hy : CloseTo y m e)
    (a : Experiment) :
    ({ a with kind := .num x } : Experiment).file = ({ a with kind := .num y } : Experiment).file := by
  have : fmtE x = fmtE y := fmtE_congr hx.pos.ne' hy.pos.ne'
    (iff_of_false hx.pos.not_gt hy.pos.not_gt) (hx.sci.trans hy.sci.symm)
  unfold Experiment.file getFilePath
  simp only [this]

/-- Two shipped schemes share a file: they are different but have the same name. -/
theorem C60_scheme_violated :
    Tableau.embeddedThirdOrderThreeStageSdirk1.b ≠ Tableau.embeddedThirdOrderThreeStageSdirk2.b ∧
    ∀ a : Experiment,
      ({ a with butcher := Tableau.embeddedThirdOrderThreeStageSdirk1.name.toList } : Experiment).file
      = ({ a with butcher := Tableau.embeddedThirdOrderThreeStageSdirk2.name.toList } :
          Experiment).file := by
  refine ⟨fun h => ?_, fun a => rfl⟩
  have h0 : Tableau.embeddedThirdOrderThreeStageSdirk1.b (0 : Fin 3)
      ≠ Tableau.embeddedThirdOrderThreeStageSdirk2.b (0 : Fin 3) := by decide +kernel
  exact h0 (congrFun h (0 : Fin 3))

/-- Names that differ only in case, commas, blanks and underscores share a file too. -/
theorem C60_name_violated (a : Experiment) (n n' : Str) (h : nameKey n = nameKey n')
    (hn : '/' ∉ n) (hn' : '/' ∉ n') :
    ({ a with butcher := n } : Experiment).file = ({ a with butcher := n' } : Experiment).file := by
  rw [← sanitize_eq_nameKey, ← sanitize_eq_nameKey] at h
  unfold Experiment.file
  cases hk : a.kind with
  | str s =>
    dsimp only
    by_cases hs : s = sAdaptive ∨ s = sAverage
    · rw [path_str hs hn, path_str hs hn', h]
    · rw [not_or] at hs
      unfold getFilePath
      simp only [if_pos hs]
  | num x =>
    dsimp only
    rw [path_num hn, path_num hn', h]
  | other => rfl

/-- The step sizes of the study of the Prothero-Robinson problem, as decimals. -/
def studySteps : List (ℕ × ℤ) := [(1, -3), (2, -3), (4, -3), (5, -3), (1, -2)]

-- the floating point numbers of the study are much closer to the decimals than `CloseTo` demands,
-- and different steps get different files, as do different schemes
example (x y : ℚ) (hx : |x - 1 / 1000| < 1 / 10 ^ 9) (hy : |y - 2 / 1000| < 1 / 10 ^ 9) (p : Path)
    (h : (⟨["data".toList], -100, "SDIRK 2-stage, 2nd order".toList, [0], 0, .num x⟩ :
      Experiment).file = .ok p) :
    (⟨["data".toList], -100, "SDIRK 2-stage, 2nd order".toList, [0], 0, .num y⟩ :
      Experiment).file ≠ .ok p := by
  refine (C60_distinct_partial _ _ (by dsimp only; decide) (by dsimp only; decide)).2 ?_ p h
  refine Or.inr (Or.inr (Or.inr (Or.inr (Or.inl ⟨x, 1, -3, y, 2, -3, rfl, rfl, ⟨by norm_num,
    by norm_num, ?_⟩, ⟨by norm_num, by norm_num, ?_⟩, by decide⟩))))
  · have : ((1 : ℕ) : ℚ) * 10 ^ (-3 : ℤ) = 1 / 1000 := by norm_num
    rw [this]
    exact lt_trans hx (by norm_num)
  · have : ((2 : ℕ) : ℚ) * 10 ^ (-3 : ℤ) = 2 / 1000 := by norm_num
    rw [this]
    exact lt_trans hy (by norm_num)

example : nameKey "SDIRK 2-stage, 2nd order".toList ≠ nameKey "ESDIRK 3-stage, 2nd order".toList ∧
    nameKey "SDIRK 3-stage, 3rd order".toList = "sdirk_3-stage_3rd_order".toList := by
  decide +kernel

-- 0.001 and 0.00104 share a file
example : CloseTo (1 / 1000) 1 (-3) ∧ CloseTo (104 / 100000) 1 (-3) := by
  unfold CloseTo
  norm_num [abs_lt]

/-! ### C62 -/

theorem update_length {α : Type} {l l' : List (String × α)} {k : String} {f : α → Except File.Err α}
    (h : File.update l k f = .ok l') : l'.length = l.length := by
  unfold File.update at h
  split at h
  · cases h
  · split at h
    · cases h
    · cases h
      simp [File.put]

theorem foldlM_length {α β : Type} {g : List β → α → Except File.Err (List β)}
    (hg : ∀ f a f', g f a = .ok f' → f'.length = f.length) :
    ∀ (l : List α) (f f' : List β), l.foldlM g f = .ok f' → f'.length = f.length := by
  intro l
  induction l with
  | nil => intro f f' h; cases h; rfl
  | cons a l ih =>
    intro f f' h
    rw [List.foldlM_cons] at h
    cases h1 : g f a with
    | error e => rw [h1] at h; cases h
    | ok f1 =>
      rw [h1] at h
      rw [ih f1 f' h, hg f a f1 h1]

theorem createOne_length {m : Metadata.Meta} {emb : Bool} {f f' : File.File} {k : String}
    (h : File.createOne m emb f k = .ok f') : f'.length = f.length + 1 := by
  unfold File.createOne at h
  cases h1 : File.create f k [] with
  | error e => rw [h1] at h; cases h
  | ok f1 =>
    rw [h1] at h
    have l1 : f1.length = f.length + 1 := by
      unfold File.create at h1
      split at h1
      · cases h1
      · cases h1; simp
    simp only [bind, Except.bind] at h
    split at h
    · cases h
    · rename_i f2 h2
      have l2 := update_length h2
      split at h
      · cases h
      · rename_i f3 h3
        have l3 := foldlM_length (fun f q f' hq => update_length hq) _ _ _ h3
        split at h
        · rw [update_length h, l3, l2, l1]
        · cases h
          rw [l3, l2, l1]

theorem stepFile_length {ms : List Metadata.Meta} {emb : Bool} {it : ℕ} {f : Option File.File}
    {s : List File.Snap} {f' : File.File} (h : File.stepFile 1 ms emb it f s = .ok f') :
    f'.length = if it = 1 then 2 else (f.getD []).length + 1 := by
  unfold File.stepFile at h
  cases h1 : File.before 1 (ms.headD {}) emb it f with
  | error e => rw [h1] at h; cases h
  | ok f1 =>
    rw [h1] at h
    have l2 : f'.length = f1.length := by
      unfold File.after at h
      simp only [bind, Except.bind, File.openFile] at h
      refine foldlM_length ?_ _ _ _ h
      intro g a g' hg
      unfold File.afterRank at hg
      cases h3 : File.writeInitial it g a with
      | error e => rw [h3] at hg; cases hg
      | ok g1 =>
        rw [h3] at hg
        have l3 : g1.length = g.length := by
          unfold File.writeInitial at h3
          split at h3
          · exact update_length h3
          · cases h3; rfl
        simp only [File.due, bind, Except.bind] at hg
        simp only [one_ne_zero, if_false, Nat.mod_one, decide_true, if_true] at hg
        rw [update_length hg, l3]
    rw [l2]
    unfold File.before File.due at h1
    simp only [one_ne_zero, if_false, Nat.mod_one, decide_true, if_true, bind, Except.bind] at h1
    by_cases hit : it = 1
    · subst hit
      simp only [decide_true, File.openFile, if_true, List.cons_append, List.nil_append,
        List.foldlM_cons, List.foldlM_nil, bind, Except.bind] at h1
      rw [if_pos rfl]
      split at h1
      · cases h1
      · rename_i g1 hg1
        split at h1
        · cases h1
        · rename_i g2 hg2
          cases h1
          rw [createOne_length hg2, createOne_length hg1]
          rfl
    · simp only [hit, decide_false, File.openFile, if_false, List.nil_append,
        List.foldlM_cons, List.foldlM_nil, bind, Except.bind] at h1
      rw [if_neg hit]
      cases f with
      | none => cases h1
      | some f0 =>
        simp only [Bool.false_eq_true, if_false] at h1
        cases hg1 : File.createOne (ms.headD {}) emb f0 (toString it) with
        | error e => rw [hg1] at h1; cases h1
        | ok g1 =>
          rw [hg1] at h1
          cases h1
          rw [createOne_length hg1]
          rfl

theorem runFile_length {ms : List Metadata.Meta} {emb : Bool} :
    ∀ (steps : List (List File.Snap)) (it : ℕ) (f : Option File.File) (f' : File.File), 1 ≤ it →
      steps ≠ [] → (it ≠ 1 → (f.getD []).length = it) →
      File.runFile 1 ms emb it f steps = .ok (some f') → f'.length = it + steps.length := by
  intro steps
  induction steps with
  | nil => intro it f f' _ hne; exact absurd rfl hne
  | cons s rest ih =>
    intro it f f' hit _ hf h
    unfold File.runFile at h
    cases h1 : File.stepFile 1 ms emb it f s with
    | error e => rw [h1] at h; cases h
    | ok f1 =>
      rw [h1] at h
      have l1 := stepFile_length h1
      have l2 : f1.length = it + 1 := by
        rw [l1]
        split_ifs with hc
        · omega
        · rw [hf hc]
      cases rest with
      | nil =>
        simp only [bind, Except.bind] at h
        unfold File.runFile at h
        cases h
        rw [l2]
        rfl
      | cons s' rest' =>
        have := ih (it + 1) (some f1) f' (by omega) (by simp) (fun _ => l2) h
        rw [this]
        simp only [List.length_cons]
        omega

/-- C62, the part that holds: the steps of the average run add up to the time that is to be
covered. -/
theorem C62_time_partial (T : ℝ) (f : File.File) (h : ℝ) (n : ℕ)
    (hr : averageRun T f = .ok (h, n)) : n * h = T ∧ 0 < n := by
  unfold averageRun at hr
  split at hr
  · cases hr
  · rename_i h0
    cases hr
    refine ⟨mul_div_cancel₀ T (by exact_mod_cast h0), Nat.pos_of_ne_zero h0⟩

/-- The average run has one step more than the adaptive run, and a smaller step size than its
average: the group of the initial values is counted as a step. For every adaptive run of `n ≥ 1`
steps whose file was written. -/
theorem C62_count_violated (T : ℝ) {ms : List Metadata.Meta} {emb : Bool} {before : Option File.File}
    {steps : List (List File.Snap)} (hne : steps ≠ []) {f : File.File}
    (hf : File.runFile 1 ms emb 1 before steps = .ok (some f)) :
    averageRun T f = .ok (T / (steps.length + 1), steps.length + 1) := by
  have hl := runFile_length steps 1 before f le_rfl hne (fun h => absurd rfl h) hf
  unfold averageRun countKeys
  rw [hl, if_neg (by omega)]
  push_cast
  rw [add_comm (1 : ℝ), Nat.add_comm]

-- a run of one step of a scheme with one quantity on one rank
example : ∃ f, File.runFile 1 [⟨none, 1, 0, [⟨"x", ⟨[1], [1], false, false, 0, 1, 0, 1⟩, none, none, some "y", none⟩], []⟩]
    false 1 none [[⟨0, fun _ => 1, 1, fun _ => 2, none⟩]] = .ok (some f) := ⟨_, rfl⟩

/-! ### C63 -/

/-- C63, the part that holds: for a path with a directory the part up to the last slash is created
unless it exists; nothing is created for other kinds of files. -/
theorem C63_directory_partial (exist : Str → Bool) (dir file : Str) (hf : '/' ∉ file) :
    (file.drop (file.length - 3) = ".h5".toList ∨ file.drop (file.length - 4) = ".png".toList →
      generatePath exist (dir ++ '/' :: file)
        = .ok (if exist (dir ++ ['/']) then none else some (dir ++ ['/']))) ∧
    (3 < file.length → file.drop (file.length - 3) ≠ ".h5".toList →
      file.drop (file.length - 4) ≠ ".png".toList →
      generatePath exist (dir ++ '/' :: file) = .ok none) := by
  have hdrop : ∀ k, k ≤ file.length →
      (dir ++ '/' :: file).drop ((dir ++ '/' :: file).length - k) = file.drop (file.length - k) := by
    intro k hk
    have e : (dir ++ '/' :: file).length - k = (dir ++ ['/']).length + (file.length - k) := by
      simp only [List.length_append, List.length_cons, List.length_nil]; omega
    rw [e, show dir ++ '/' :: file = (dir ++ ['/']) ++ file by simp, List.drop_append]
    simp
  have hdir : ((dir ++ '/' :: file).reverse.dropWhile fun c => c ≠ '/').reverse = dir ++ ['/'] := by
    have e : (dir ++ '/' :: file).reverse = file.reverse ++ ('/' :: dir.reverse) := by simp
    rw [e, List.dropWhile_append_of_pos]
    · simp
    · intro c hc
      have : c ≠ '/' := by rintro rfl; exact hf (List.mem_reverse.mp hc)
      simp [this]
  constructor
  · intro hs
    have hcond : (dir ++ '/' :: file).drop ((dir ++ '/' :: file).length - 3) = ".h5".toList ∨
        (dir ++ '/' :: file).drop ((dir ++ '/' :: file).length - 4) = ".png".toList := by
      rcases hs with h | h
      · left
        rw [hdrop _ ?_, h]
        have := congrArg List.length h
        simp at this
        omega
      · right
        rw [hdrop _ ?_, h]
        have := congrArg List.length h
        simp at this
        omega
    unfold generatePath
    rw [if_pos hcond]
    dsimp only
    rw [hdir]
    split_ifs with h1 h2
    · rfl
    · exact absurd h2 (by simp)
    · rfl
  · intro hl h1 h2
    unfold generatePath
    rw [if_neg]
    rintro (h | h)
    · rw [hdrop _ (by omega)] at h; exact h1 h
    · rw [hdrop _ (by omega)] at h; exact h2 h

/-- For a file name without directory `os.makedirs("")` is called, which raises
`FileNotFoundError` (no directory has an empty name). -/
theorem C63_bare_name_violated (exist : Str → Bool) (h0 : exist [] = false) (name : Str)
    (hn : '/' ∉ name) : generatePath exist (name ++ ".h5".toList) = .error .notFound := by
  have hdir : ((name ++ ".h5".toList).reverse.dropWhile fun c => c ≠ '/').reverse = [] := by
    rw [List.reverse_eq_nil_iff, List.dropWhile_eq_nil_iff]
    intro c hc
    have hc := List.mem_reverse.mp hc
    have : c ≠ '/' := by
      rintro rfl
      rcases List.mem_append.mp hc with h | h
      · exact hn h
      · exact absurd h (by decide)
    simp [this]
  unfold generatePath
  rw [if_pos]
  · dsimp only
    rw [hdir, h0]
    rfl
  · left
    simp

example : generatePath (fun _ => false) "data/kaps/x.h5".toList = .ok (some "data/kaps/".toList) := by
  decide +kernel

/-! ### C64 -/

/-- C64: if the files of all step sizes exist, the tolerance is the mean of their last local errors,
so it lies between the smallest and the largest of them; if one is missing it is `1e-6`. The
files are exactly those the runs with these step sizes are written to. -/
theorem C64_tolerance (folder : Path) (butcher : Str) (steps : List ℚ) (hs : steps ≠ [])
    (lastError : Path → Option ℝ) :
    (∀ err : ℚ → ℝ, (∀ h ∈ steps, ∃ p, (⟨folder, 0, butcher, [], 0, .num h⟩ : Experiment).file = .ok p ∧
        lastError p = some (err h)) →
      computeTolerance folder butcher steps lastError
        = .ok (some ((steps.map err).sum / steps.length)) ∧
      ∀ lo hi, (∀ h ∈ steps, lo ≤ err h ∧ err h ≤ hi) →
        lo ≤ (steps.map err).sum / steps.length ∧ (steps.map err).sum / steps.length ≤ hi) ∧
    ((∃ h ∈ steps, ∃ p, (⟨folder, 0, butcher, [], 0, .num h⟩ : Experiment).file = .ok p ∧
        lastError p = none) →
      computeTolerance folder butcher steps lastError = .ok (some (1 / 10 ^ 6))) := by
  have hpath : ∀ h : ℚ, ∃ r, getFilePath folder butcher (.num h) = .ok r ∧
      (⟨folder, 0, butcher, [], 0, .num h⟩ : Experiment).file = .ok r.2 :=
    fun h => ⟨_, rfl, rfl⟩
  choose r hr1 hr2 using hpath
  have hmap : ∀ l : List ℚ, l.mapM (fun h => getFilePath folder butcher (.num h)) = .ok (l.map r) := by
    intro l
    induction l with
    | nil => rfl
    | cons a l ih =>
      rw [List.mapM_cons, hr1, ih]
      rfl
  constructor
  · intro err herr
    have hlast : ∀ l : List ℚ, (∀ h ∈ l, h ∈ steps) →
        (l.map r).mapM (fun p => lastError p.2) = some (l.map err) := by
      intro l
      induction l with
      | nil => intro _; rfl
      | cons a l ih =>
        intro hl
        obtain ⟨p, hp, hp'⟩ := herr a (hl a List.mem_cons_self)
        rw [hr2] at hp
        cases hp
        rw [List.map_cons, List.mapM_cons, hp', ih fun h hh => hl h (List.mem_cons_of_mem _ hh)]
        rfl
    refine ⟨?_, ?_⟩
    · unfold computeTolerance
      rw [hmap]
      simp only [bind, Except.bind]
      rw [hlast steps fun h hh => hh]
      simp only [List.map_eq_nil_iff, List.length_map]
      rw [if_neg hs]
    · intro lo hi hb
      have hpos : (0 : ℝ) < steps.length := by
        exact_mod_cast List.length_pos_iff.mpr hs
      have hsum : ∀ l : List ℚ, (∀ h ∈ l, lo ≤ err h ∧ err h ≤ hi) →
          lo * l.length ≤ (l.map err).sum ∧ (l.map err).sum ≤ hi * l.length := by
        intro l
        induction l with
        | nil => intro _; simp
        | cons a l ih =>
          intro hl
          have h1 := ih fun h hh => hl h (List.mem_cons_of_mem _ hh)
          have h2 := hl a List.mem_cons_self
          simp only [List.map_cons, List.sum_cons, List.length_cons]
          push_cast
          constructor <;> linarith [h1.1, h1.2, h2.1, h2.2]
      rw [le_div_iff₀ hpos, div_le_iff₀ hpos]
      exact hsum steps hb
  · rintro ⟨h, hh, p, hp, hp'⟩
    have hnone : ∀ l : List ℚ, h ∈ l → (l.map r).mapM (fun p => lastError p.2) = none := by
      intro l
      induction l with
      | nil => intro hm; exact absurd hm List.not_mem_nil
      | cons a l ih =>
        intro hm
        rw [List.map_cons, List.mapM_cons]
        rcases List.mem_cons.mp hm with e | hm
        · subst e
          rw [hr2] at hp
          cases hp
          rw [hp']
          rfl
        · rw [ih hm]
          cases lastError (r a).2 <;> rfl
    unfold computeTolerance
    rw [hmap]
    simp only [bind, Except.bind]
    rw [hnone steps hh]

example : computeTolerance [] [] [1 / 1000, 2 / 1000] (fun _ => some 3) = .ok (some 3) := by
  have := ((C64_tolerance [] [] [1 / 1000, 2 / 1000] (by simp) (fun _ => some 3)).1 (fun _ => 3)
    (fun h _ => ⟨_, rfl, rfl⟩)).1
  rw [this]
  norm_num

/-- C64 without step sizes: there is no mean, the result is NaN. -/
theorem C64_no_step_sizes (folder : Path) (butcher : Str) (lastError : Path → Option ℝ) :
    computeTolerance folder butcher [] lastError = .ok none :=
  rfl

end Verif.Props
