/-
C119: the text of a tableau shows the tableau.
-/
import Verif.Tableau.Text

namespace Verif.Props

open Verif.Tableau

namespace TableauText

/-- The parts of a text between the separators. -/
def cut (sep : Char) : Text → List Text
  | [] => [[]]
  | x :: l =>
    if x = sep then [] :: cut sep l
    else match cut sep l with
      | [] => [[x]]
      | h :: t => (x :: h) :: t

/-- The words of a text, separated by any number of blanks. -/
def words (l : Text) : List Text := (cut ' ' l).filter (· ≠ [])

/-- The columns of a line, separated by bars: the words of each. -/
def columns (l : Text) : List (List Text) := (cut '|' l).map words

theorem cut_first (sep : Char) (xs l : Text) (h : sep ∉ xs) :
    cut sep (xs ++ sep :: l) = xs :: cut sep l := by
  induction xs with
  | nil => simp [cut]
  | cons x xs ih =>
    simp only [List.mem_cons, not_or] at h
    rw [List.cons_append, cut, if_neg (Ne.symm h.1), ih h.2]

theorem cut_single (sep : Char) (xs : Text) (h : sep ∉ xs) : cut sep xs = [xs] := by
  induction xs with
  | nil => simp [cut]
  | cons x xs ih =>
    simp only [List.mem_cons, not_or] at h
    rw [cut, if_neg (Ne.symm h.1), ih h.2]

theorem cut_lines (sep : Char) (ls : List Text) (t : Text) (h : ∀ l ∈ ls, sep ∉ l) :
    cut sep (ls.flatMap (fun l => l ++ [sep]) ++ t) = ls ++ cut sep t := by
  induction ls with
  | nil => simp
  | cons l ls ih =>
    rw [List.flatMap_cons, List.append_assoc, List.append_assoc, List.singleton_append,
      cut_first _ _ _ (h l (by simp)), ih fun q hq => h q (by simp [hq])]
    rfl

theorem words_blanks (k : ℕ) (l : Text) : words (List.replicate k ' ' ++ l) = words l := by
  induction k with
  | zero => simp
  | succ k ih =>
    rw [List.replicate_succ, List.cons_append, words, cut, if_pos rfl, List.filter_cons]
    simpa [words] using ih

theorem words_nil : words [] = [] := by simp [words, cut]

theorem solid_not {e : Text} (he : Solid e) : ' ' ∉ e ∧ '\n' ∉ e ∧ '|' ∉ e := by
  refine ⟨fun h => ?_, fun h => ?_, fun h => ?_⟩
  · exact absurd (he.2 _ h).1 (by decide)
  · exact absurd (he.2 _ h).1 (by decide)
  · exact (he.2 _ h).2 rfl

theorem words_single {e : Text} (he : Solid e) : words e = [e] := by
  rw [words, cut_single _ _ (solid_not he).1]
  simp [he.1]

theorem words_entry {e : Text} (he : Solid e) (w : ℕ) (hw : e.length ≤ w) (l : Text) :
    words (ljust (w + 1) e ++ l) = e :: words l := by
  have : w + 1 - e.length = (w - e.length) + 1 := by omega
  rw [ljust, this, List.replicate_succ, List.append_assoc, List.cons_append, words,
    cut_first _ _ _ (solid_not he).1, List.filter_cons, if_pos (by simpa using he.1)]
  exact congrArg _ (words_blanks _ _)

theorem words_row (es : List Text) (hs : ∀ e ∈ es, Solid e) (w : ℕ) (hw : ∀ e ∈ es, e.length ≤ w)
    (l : Text) : words (es.flatMap (ljust (w + 1)) ++ l) = es ++ words l := by
  induction es with
  | nil => simp
  | cons e es ih =>
    rw [List.flatMap_cons, List.append_assoc, words_entry (hs e (by simp)) w (hw e (by simp)),
      ih (fun q hq => hs q (by simp [hq])) (fun q hq => hw q (by simp [hq]))]
    rfl

theorem words_short (es : List Text) (hs : ∀ e ∈ es, Solid e) (w : ℕ)
    (hw : ∀ e ∈ es, e.length ≤ w) (h0 : es ≠ []) : words (short w es) = es := by
  obtain ⟨l, x, rfl⟩ := List.eq_nil_or_concat es |>.resolve_left h0
  rw [List.concat_eq_append] at *
  rw [short, List.dropLast_concat, words_row l (fun q hq => hs q (by simp [hq])) w
    (fun q hq => hw q (by simp [hq]))]
  simp [words_single (hs x (by simp))]

theorem not_mem_row (c : Char) (hc : c ≠ ' ') (es : List Text) (hs : ∀ e ∈ es, c ∉ e) (w : ℕ) :
    c ∉ es.flatMap (ljust w) := by
  simp only [List.mem_flatMap, ljust, List.mem_append, List.mem_replicate, not_exists, not_and, not_or]
  exact fun e he => ⟨hs e he, fun _ => hc⟩

theorem not_mem_short (c : Char) (hc : c ≠ ' ') (es : List Text) (hs : ∀ e ∈ es, c ∉ e) (w : ℕ) :
    c ∉ short w es := by
  rw [short, List.mem_append, not_or]
  refine ⟨not_mem_row c hc _ (fun e he => hs e (List.dropLast_subset _ he)) _, ?_⟩
  rcases List.eq_nil_or_concat es with rfl | ⟨l, x, rfl⟩
  · simp
  · rw [List.concat_eq_append] at *
    simpa using hs x (by simp)

/-- The words of a line of the matrix. -/
theorem columns_row (w : ℕ) (c : Text) (es : List Text) (hc : Solid c) (hcw : c.length ≤ w)
    (hs : ∀ e ∈ es, Solid e) (hw : ∀ e ∈ es, e.length ≤ w) (h0 : es ≠ []) :
    columns (ljust (w + 1) c ++ ['|'] ++ short w es) = [[c], es] := by
  have h1 : '|' ∉ ljust (w + 1) c := by
    have := not_mem_row '|' (by decide) [c] (by simpa using (solid_not hc).2.2) (w + 1)
    simpa using this
  have h2 := words_entry hc w hcw []
  rw [columns, List.append_assoc, List.singleton_append, cut_first _ _ _ h1,
    cut_single _ _ (not_mem_short '|' (by decide) es (fun e he => (solid_not (hs e he)).2.2) w)]
  rw [List.append_nil, words_nil] at h2
  simp [h2, words_short es hs w hw h0]

theorem columns_weights (w : ℕ) (t : Text) (es : List Text) (ht : '|' ∉ t) (he : words t = es) :
    columns (List.replicate (w + 1) ' ' ++ ['|'] ++ t) = [[], es] := by
  have h1 : '|' ∉ List.replicate (w + 1) ' ' := by simp
  have h2 := words_blanks (w + 1) []
  rw [columns, List.append_assoc, List.singleton_append, cut_first _ _ _ h1, cut_single _ _ ht]
  rw [List.append_nil, words_nil] at h2
  simp [h2, he]

/-- The lines above the weights. -/
theorem head_lines (w : ℕ) (name : Text) (rows : List (Text × List Text)) (t : Text)
    (hn : '\n' ∉ name) (h0 : ∀ r ∈ rows, r.2 ≠ [])
    (hc : ∀ r ∈ rows, Solid r.1 ∧ r.1.length ≤ w)
    (hs : ∀ r ∈ rows, ∀ e ∈ r.2, Solid e ∧ e.length ≤ w) :
    ∃ body, body.map columns = rows.map (fun r => [[r.1], r.2]) ∧
      cut '\n' (addRows w (name ++ ['\n']) rows ++ t) = name :: body ++ cut '\n' t := by
  refine ⟨rows.map fun r => ljust (w + 1) r.1 ++ ['|'] ++ short w r.2, ?_, ?_⟩
  · rw [List.map_map]
    refine List.map_congr_left fun r hr => ?_
    exact columns_row w r.1 r.2 (hc r hr).1 (hc r hr).2 (fun e he => (hs r hr e he).1)
      (fun e he => (hs r hr e he).2) (h0 r hr)
  · rw [addRows_eq _ _ _ h0 fun r hr e he => (hs r hr e he).1]
    have := cut_lines '\n' (rows.map fun r => ljust (w + 1) r.1 ++ ['|'] ++ short w r.2) t (by
      simp only [List.mem_map]
      rintro l ⟨r, hr, rfl⟩
      rw [List.mem_append, List.mem_append, not_or, not_or]
      refine ⟨⟨?_, by simp⟩, not_mem_short _ (by decide) _
        (fun e he => (solid_not (hs r hr e he).1).2.1) _⟩
      have := not_mem_row '\n' (by decide) [r.1] (by simpa using (solid_not (hc r hr).1).2.1) (w + 1)
      simpa using this)
    rw [List.flatMap_map] at this
    rw [List.append_assoc, List.append_assoc, List.singleton_append, cut_first _ _ _ hn, this]
    rfl

theorem rule_line (x : Char) (hx : x ≠ '\n') (w n : ℕ) (t : Text) :
    ∃ bar, (∀ y ∈ bar, y = x ∨ y = '|') ∧ cut '\n' (rule x w n ++ t) = bar :: cut '\n' t := by
  refine ⟨List.replicate (w + 1) x ++ ['|'] ++ List.replicate ((w + 1) * n) x, ?_, ?_⟩
  · intro y hy
    simp only [List.mem_append, List.mem_replicate, List.mem_singleton] at hy
    tauto
  · rw [rule, List.append_assoc _ ['\n'], List.singleton_append]
    refine cut_first _ _ _ ?_
    simp only [List.mem_append, List.mem_replicate, List.mem_singleton]
    rintro ((⟨_, h⟩ | h) | ⟨_, h⟩)
    · exact hx h.symm
    · exact absurd h (by decide)
    · exact hx h.symm

end TableauText

open TableauText

variable {K : Type}

/-- C119 for plain tableaux: the first line is the name. Then there is a line for each stage, with the
node left of the bar and the row of the matrix right of it; a ruled line; and a line with nothing left
of the bar and the weights right of it. -/
theorem C119_plain (fmt : K → Text) (T : Tableau K) (hT : T.stages ≠ 0)
    (hf : ∀ x, fmt x ≠ [] ∧ ∀ ch ∈ fmt x, ch.isWhitespace = false ∧ ch ≠ '|')
    (hn : '\n' ∉ T.name.toList) :
    ∃ body bar last, cut '\n' (T.str fmt) = T.name.toList :: body ++ [bar, last] ∧
      body.map columns
        = List.ofFn (fun i => [[fmt (T.c i)], List.ofFn fun j => fmt (T.A i j)]) ∧
      (∀ y ∈ bar, y = '_' ∨ y = '|') ∧
      columns last = [[], List.ofFn fun j => fmt (T.b j)] := by
  have hne : ∀ f : Fin T.stages → Text, List.ofFn f ≠ [] := fun f h =>
    hT (by simpa using congrArg List.length h)
  set rows := rowTexts fmt T with hrows
  set b := List.ofFn fun j => fmt (T.b j) with hb
  have hbS : ∀ e ∈ b, Solid e := by
    intro e he; obtain ⟨j, rfl⟩ := (List.mem_ofFn' _ _).1 he; exact hf _
  have hrow : ∀ r ∈ rows, ∃ i, r = (fmt (T.c i), List.ofFn fun j => fmt (T.A i j)) := by
    intro r hr; obtain ⟨i, rfl⟩ := (List.mem_ofFn' _ _).1 hr; exact ⟨i, rfl⟩
  set w := colMax (rows.flatMap Prod.snd ++ b ++ rows.map Prod.fst) with hw
  have hbw : ∀ e ∈ b, e.length ≤ w := fun e he => length_le_colMax (by simp [he])
  obtain ⟨body, h1, h2⟩ := head_lines w T.name.toList rows
    (rule '_' w rows.length ++ (List.replicate (w + 1) ' ' ++ ['|'] ++ short w b)) hn
    (fun r hr => by obtain ⟨i, rfl⟩ := hrow r hr; exact hne _)
    (fun r hr => ⟨by obtain ⟨i, rfl⟩ := hrow r hr; exact hf _,
      length_le_colMax (by
        simp only [List.mem_append, List.mem_map]; exact .inr ⟨r, hr, rfl⟩)⟩)
    (fun r hr e he => ⟨by
        obtain ⟨i, rfl⟩ := hrow r hr
        obtain ⟨j, rfl⟩ := (List.mem_ofFn' _ _).1 he; exact hf _,
      length_le_colMax (by
        simp only [List.mem_append, List.mem_flatMap]; exact .inl (.inl ⟨r, hr, he⟩))⟩)
  obtain ⟨bar, h3, h4⟩ := rule_line '_' (by decide) w rows.length
    (List.replicate (w + 1) ' ' ++ ['|'] ++ short w b)
  have hshort : '|' ∉ short w b := not_mem_short _ (by decide) _ (fun e he => (solid_not (hbS e he)).2.2) _
  have hshort' : '\n' ∉ short w b :=
    not_mem_short _ (by decide) _ (fun e he => (solid_not (hbS e he)).2.1) _
  refine ⟨body, bar, List.replicate (w + 1) ' ' ++ ['|'] ++ short w b, ?_, ?_, h3, ?_⟩
  · have : T.str fmt = addRows w (T.name.toList ++ ['\n']) rows ++ (rule '_' w rows.length
        ++ (List.replicate (w + 1) ' ' ++ ['|'] ++ short w b)) := by
      have := rstrip_row (addRows w (T.name.toList ++ ['\n']) rows ++ rule '_' w rows.length
        ++ List.replicate (w + 1) ' ' ++ ['|']) w b (hne _) hbS
      simp only [List.append_assoc] at this ⊢
      rw [← this, Tableau.str, strPlain, weights]
      simp only [List.append_assoc, hw, hb, hrows]
    rw [this, h2, h4, cut_single]
    simp [hshort']
  · rw [h1, hrows, rowTexts, List.map_ofFn]; rfl
  · exact columns_weights w _ _ hshort (words_short b hbS w hbw (hne _))

/-- C119 for embedded tableaux: the name is marked, and a second ruled line and the second weights
follow. -/
theorem C119_embedded (fmt : K → Text) (T : EmbTableau K) (hT : T.stages ≠ 0)
    (hf : ∀ x, fmt x ≠ [] ∧ ∀ ch ∈ fmt x, ch.isWhitespace = false ∧ ch ≠ '|')
    (hn : '\n' ∉ T.name.toList) :
    ∃ body bar mid bar' last, cut '\n' (T.str fmt)
        = (T.name.toList ++ " (Embedded)".toList) :: body ++ [bar, mid, bar', last] ∧
      body.map columns
        = List.ofFn (fun i => [[fmt (T.c i)], List.ofFn fun j => fmt (T.A i j)]) ∧
      (∀ y ∈ bar, y = '_' ∨ y = '|') ∧ columns mid = [[], List.ofFn fun j => fmt (T.b j)] ∧
      (∀ y ∈ bar', y = '-' ∨ y = '|') ∧
      columns last = [[], List.ofFn fun j => fmt (T.bhat j)] := by
  have hne : ∀ f : Fin T.stages → Text, List.ofFn f ≠ [] := fun f h =>
    hT (by simpa using congrArg List.length h)
  set rows := rowTexts fmt T.toTableau with hrows
  set b := List.ofFn fun j => fmt (T.b j) with hb
  set bh := List.ofFn fun j => fmt (T.bhat j) with hbh
  have hbS : ∀ e ∈ b, Solid e := by
    intro e he; obtain ⟨j, rfl⟩ := (List.mem_ofFn' _ _).1 he; exact hf _
  have hbhS : ∀ e ∈ bh, Solid e := by
    intro e he; obtain ⟨j, rfl⟩ := (List.mem_ofFn' _ _).1 he; exact hf _
  have hrow : ∀ r ∈ rows, ∃ i, r = (fmt (T.c i), List.ofFn fun j => fmt (T.A i j)) := by
    intro r hr; obtain ⟨i, rfl⟩ := (List.mem_ofFn' _ _).1 hr; exact ⟨i, rfl⟩
  set w := colMax (rows.flatMap Prod.snd ++ b ++ rows.map Prod.fst ++ bh) with hw
  have hbw : ∀ e ∈ b, e.length ≤ w := fun e he => length_le_colMax (by simp [he])
  have hbhw : ∀ e ∈ bh, e.length ≤ w := fun e he => length_le_colMax (by simp [he])
  set t := List.replicate (w + 1) ' ' ++ ['|'] ++ short w bh with ht
  set m := List.replicate (w + 1) ' ' ++ ['|'] ++ b.flatMap (ljust (w + 1)) with hm
  obtain ⟨body, h1, h2⟩ := head_lines w (T.name.toList ++ " (Embedded)".toList) rows
    (rule '_' w rows.length ++ (m ++ '\n' :: (rule '-' w rows.length ++ t)))
    (by rw [List.mem_append, not_or]; exact ⟨hn, by decide⟩)
    (fun r hr => by obtain ⟨i, rfl⟩ := hrow r hr; exact hne _)
    (fun r hr => ⟨by obtain ⟨i, rfl⟩ := hrow r hr; exact hf _,
      length_le_colMax (by
        simp only [List.mem_append, List.mem_map]; exact .inl (.inr ⟨r, hr, rfl⟩))⟩)
    (fun r hr e he => ⟨by
        obtain ⟨i, rfl⟩ := hrow r hr
        obtain ⟨j, rfl⟩ := (List.mem_ofFn' _ _).1 he; exact hf _,
      length_le_colMax (by
        simp only [List.mem_append, List.mem_flatMap]; exact .inl (.inl (.inl ⟨r, hr, he⟩)))⟩)
  obtain ⟨bar, h3, h4⟩ := rule_line '_' (by decide) w rows.length
    (m ++ '\n' :: (rule '-' w rows.length ++ t))
  obtain ⟨bar', h5, h6⟩ := rule_line '-' (by decide) w rows.length t
  have hp : '|' ∉ b.flatMap (ljust (w + 1)) :=
    not_mem_row _ (by decide) _ (fun e he => (solid_not (hbS e he)).2.2) _
  have hp' : '\n' ∉ b.flatMap (ljust (w + 1)) :=
    not_mem_row _ (by decide) _ (fun e he => (solid_not (hbS e he)).2.1) _
  have hq : '|' ∉ short w bh :=
    not_mem_short _ (by decide) _ (fun e he => (solid_not (hbhS e he)).2.2) _
  have hq' : '\n' ∉ short w bh :=
    not_mem_short _ (by decide) _ (fun e he => (solid_not (hbhS e he)).2.1) _
  have hmn : '\n' ∉ m := by
    rw [hm, List.mem_append, List.mem_append, not_or, not_or]; exact ⟨⟨by simp, by simp⟩, hp'⟩
  have htn : '\n' ∉ t := by
    rw [ht, List.mem_append, List.mem_append, not_or, not_or]; exact ⟨⟨by simp, by simp⟩, hq'⟩
  refine ⟨body, bar, m, bar', t, ?_, ?_, h3, ?_, h5, ?_⟩
  · have : T.str fmt = addRows w (T.name.toList ++ " (Embedded)".toList ++ ['\n']) rows
        ++ (rule '_' w rows.length ++ (m ++ '\n' :: (rule '-' w rows.length ++ t))) := by
      have := rstrip_row (addRows w (T.name.toList ++ " (Embedded)".toList ++ ['\n']) rows
        ++ rule '_' w rows.length ++ m ++ ['\n'] ++ rule '-' w rows.length
        ++ List.replicate (w + 1) ' ' ++ ['|']) w bh (hne _) hbhS
      simp only [List.append_assoc, hm, ht, List.cons_append, List.nil_append] at this ⊢
      rw [← this, EmbTableau.str, strEmb, weights, weights]
      simp only [List.append_assoc, hw, hb, hbh, hrows, List.cons_append, List.nil_append]
    rw [this, h2, h4, cut_first _ _ _ hmn, h6, cut_single _ _ htn]
  · rw [h1, hrows, rowTexts, List.map_ofFn]; rfl
  · refine columns_weights w _ _ hp ?_
    have := words_row b hbS w hbw []
    rwa [List.append_nil, words_nil, List.append_nil] at this
  · exact columns_weights w _ _ hq (words_short bh hbhS w hbhw (hne _))

/-- C119: different tableaux have different texts, if different numbers have. -/
theorem C119_injective (fmt : K → Text) (hinj : Function.Injective fmt) (T T' : Tableau K)
    (hT : T.stages ≠ 0) (hT' : T'.stages ≠ 0)
    (hf : ∀ x, fmt x ≠ [] ∧ ∀ ch ∈ fmt x, ch.isWhitespace = false ∧ ch ≠ '|')
    (hn : '\n' ∉ T.name.toList) (hn' : '\n' ∉ T'.name.toList) (h : T.str fmt = T'.str fmt) :
    T = { T' with p := T.p } := by
  obtain ⟨body, bar, last, h1, h2, -, h3⟩ := C119_plain fmt T hT hf hn
  obtain ⟨body', bar', last', h1', h2', -, h3'⟩ := C119_plain fmt T' hT' hf hn'
  rw [h, h1', List.cons_append, List.cons_append, List.cons.injEq] at h1
  obtain ⟨hname, h4⟩ := h1
  obtain ⟨hb, h5⟩ := List.append_inj' h4 rfl
  simp only [List.cons.injEq, and_true] at h5
  rw [← hb, h2'] at h2
  rw [← h5.2, h3'] at h3
  obtain ⟨s, A, b, c, p, name⟩ := T
  obtain ⟨s', A', b', c', p', name'⟩ := T'
  have hs : s' = s := by simpa using congrArg List.length h2
  subst hs
  simp only [List.ofFn_inj, List.cons.injEq, and_true, true_and] at h2 h3
  have hA : A = A' := by
    funext i j
    have := congrFun h2 i
    simp only [List.cons.injEq, and_true, List.ofFn_inj] at this
    exact (hinj (congrFun this.2 j)).symm
  have hc : c = c' := by
    funext i
    have := congrFun h2 i
    simp only [List.cons.injEq, and_true] at this
    exact (hinj this.1).symm
  have hb' : b = b' := funext fun j => (hinj (congrFun h3 j)).symm
  have hname' : name = name' := (String.toList_inj.1 hname).symm
  subst hA hc hb' hname'
  rfl

/-- C119: the same for embedded tableaux. -/
theorem C119_injective_embedded (fmt : K → Text) (hinj : Function.Injective fmt)
    (T T' : EmbTableau K) (hT : T.stages ≠ 0) (hT' : T'.stages ≠ 0)
    (hf : ∀ x, fmt x ≠ [] ∧ ∀ ch ∈ fmt x, ch.isWhitespace = false ∧ ch ≠ '|')
    (hn : '\n' ∉ T.name.toList) (hn' : '\n' ∉ T'.name.toList) (h : T.str fmt = T'.str fmt) :
    T = { T' with p := T.p, phat := T.phat } := by
  obtain ⟨body, bar, mid, rl, last, h1, h2, -, hm, -, h3⟩ := C119_embedded fmt T hT hf hn
  obtain ⟨body', bar', mid', rl', last', h1', h2', -, hm', -, h3'⟩ := C119_embedded fmt T' hT' hf hn'
  rw [h, h1', List.cons_append, List.cons_append, List.cons.injEq] at h1
  obtain ⟨hname, h4⟩ := h1
  obtain ⟨hb, h5⟩ := List.append_inj' h4 rfl
  simp only [List.cons.injEq, and_true] at h5
  rw [← hb, h2'] at h2
  rw [← h5.2.1, hm'] at hm
  rw [← h5.2.2.2, h3'] at h3
  obtain ⟨⟨s, A, b, c, p, name⟩, bh, ph⟩ := T
  obtain ⟨⟨s', A', b', c', p', name'⟩, bh', ph'⟩ := T'
  have hs : s' = s := by simpa using congrArg List.length h2
  subst hs
  simp only [List.ofFn_inj, List.cons.injEq, and_true, true_and] at h2 h3 hm
  have hA : A = A' := by
    funext i j
    have := congrFun h2 i
    simp only [List.cons.injEq, and_true, List.ofFn_inj] at this
    exact (hinj (congrFun this.2 j)).symm
  have hc : c = c' := by
    funext i
    have := congrFun h2 i
    simp only [List.cons.injEq, and_true] at this
    exact (hinj this.1).symm
  have hb' : b = b' := funext fun j => (hinj (congrFun hm j)).symm
  have hbh : bh = bh' := funext fun j => (hinj (congrFun h3 j)).symm
  have hname' : name = name' := by
    have := List.append_cancel_right hname
    exact (String.toList_inj.1 this).symm
  subst hA hc hb' hbh hname'
  rfl

/-- Heun's method with the explicit Euler method, and numbers that are written with one digit. -/
private def heun : EmbTableau (Fin 2) :=
  { stages := 2, A := fun i j => if j < i then 1 else 0, b := fun _ => 1, c := fun i => i,
    p := some 2, name := "Heun", bhat := fun i => 1 - i, phat := some 1 }

private def digit (x : Fin 2) : Text := if x = 0 then ['0'] else ['1', '.', '5']

example : heun.str digit = ("Heun (Embedded)\n0   |0   0\n1.5 |1.5 0\n____|________\n"
    ++ "    |1.5 1.5 \n----|--------\n    |1.5 0").toList := by decide

example : heun.toTableau.str digit
    = "Heun\n0   |0   0\n1.5 |1.5 0\n____|________\n    |1.5 1.5".toList := by decide

example : Function.Injective digit ∧ heun.stages ≠ 0 ∧ '\n' ∉ heun.name.toList ∧
    (∀ x, digit x ≠ [] ∧ ∀ ch ∈ digit x, ch.isWhitespace = false ∧ ch ≠ '|') ∧
    columns "1.5 |1.5 0".toList = [["1.5".toList], ["1.5".toList, "0".toList]] := by decide

end Verif.Props
