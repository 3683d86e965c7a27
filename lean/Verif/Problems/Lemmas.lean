/-
Lemmas about the names of result files.
-/
import Verif.Problems.Model
import Verif.File.Lemmas
import Mathlib.Tactic.Linarith
import Mathlib.Tactic.NormNum
import Mathlib.Tactic.Ring
import Mathlib.Tactic.Positivity

namespace Verif.Problems

/-! ### Rounding to one digit -/

theorem roundEven_near (q : ℚ) : |(roundEven q : ℚ) - q| ≤ 1 / 2 := by
  have h1 := Int.floor_le q
  have h2 := Int.lt_floor_add_one q
  unfold roundEven
  split_ifs with c1 c2 c3 <;> push_cast <;> rw [abs_le] <;> constructor <;> linarith

theorem log_unique {a : ℚ} {e : ℤ} (h1 : (10 : ℚ) ^ e ≤ a) (h2 : a < 10 ^ (e + 1)) :
    Int.log 10 a = e := by
  have ha : 0 < a := lt_of_lt_of_le (zpow_pos (by norm_num) _) h1
  have l1 : ((10 : ℕ) : ℚ) ^ Int.log 10 a ≤ a := Int.zpow_log_le_self (by norm_num) ha
  have l2 : a < ((10 : ℕ) : ℚ) ^ (Int.log 10 a + 1) := Int.lt_zpow_succ_log_self (by norm_num) a
  push_cast at l1 l2
  have g1 : Int.log 10 a < e + 1 :=
    (zpow_lt_zpow_iff_right₀ (by norm_num : (1 : ℚ) < 10)).mp (lt_of_le_of_lt l1 h2)
  have g2 : e < Int.log 10 a + 1 :=
    (zpow_lt_zpow_iff_right₀ (by norm_num : (1 : ℚ) < 10)).mp (lt_of_le_of_lt h1 l2)
  omega

/-- The mantissa lies between 1 and 10. -/
theorem mantissa_bounds {a : ℚ} (ha : 0 < a) :
    1 ≤ a / 10 ^ Int.log 10 a ∧ a / 10 ^ Int.log 10 a < 10 := by
  have l1 : ((10 : ℕ) : ℚ) ^ Int.log 10 a ≤ a := Int.zpow_log_le_self (by norm_num) ha
  have l2 : a < ((10 : ℕ) : ℚ) ^ (Int.log 10 a + 1) := Int.lt_zpow_succ_log_self (by norm_num) a
  push_cast at l1 l2
  have hp : (0 : ℚ) < 10 ^ Int.log 10 a := zpow_pos (by norm_num) _
  rw [zpow_add_one₀ (by norm_num)] at l2
  rw [le_div_iff₀ hp, div_lt_iff₀ hp]
  constructor <;> linarith

theorem roundEven_bounds {a : ℚ} (ha : 0 < a) :
    1 ≤ roundEven (a / 10 ^ Int.log 10 a) ∧ roundEven (a / 10 ^ Int.log 10 a) ≤ 10 := by
  obtain ⟨h1, h2⟩ := mantissa_bounds ha
  obtain ⟨n1, n2⟩ := abs_le.mp (roundEven_near (a / 10 ^ Int.log 10 a))
  constructor
  · have : (0 : ℚ) < roundEven (a / 10 ^ Int.log 10 a) := by linarith
    have : (0 : ℤ) < roundEven (a / 10 ^ Int.log 10 a) := by exact_mod_cast this
    omega
  · have : ((roundEven (a / 10 ^ Int.log 10 a) : ℤ) : ℚ) < (11 : ℤ) := by push_cast; linarith
    have := Int.cast_lt.mp this
    omega

/-- The digit lies between 1 and 9, and the rounded number is not further away than half a unit of
the digit. -/
theorem sci_near {a : ℚ} (ha : 0 < a) :
    1 ≤ (sci a).1 ∧ (sci a).1 ≤ 9 ∧ |a - (sci a).1 * 10 ^ (sci a).2| ≤ 10 ^ (sci a).2 / 2 := by
  obtain ⟨h1, h2⟩ := roundEven_bounds ha
  have hn := roundEven_near (a / 10 ^ Int.log 10 a)
  have hp : (0 : ℚ) < 10 ^ Int.log 10 a := zpow_pos (by norm_num) _
  have hd : a = a / 10 ^ Int.log 10 a * 10 ^ Int.log 10 a := by field_simp
  unfold sci
  dsimp only
  generalize hr : roundEven (a / 10 ^ Int.log 10 a) = r at *
  generalize hq : a / 10 ^ Int.log 10 a = q at *
  generalize Int.log 10 a = e at *
  have hz : ((r.toNat : ℕ) : ℚ) = r := by
    have : ((r.toNat : ℕ) : ℤ) = r := Int.toNat_of_nonneg (by omega)
    exact_mod_cast this
  obtain ⟨n1, n2⟩ := abs_le.mp hn
  split_ifs with c
  · have hr10 : (r : ℚ) = 10 := by rw [← hz, c]; norm_num
    refine ⟨by norm_num, by norm_num, ?_⟩
    rw [zpow_add_one₀ (by norm_num), hd, abs_le]
    rw [hr10] at n1 n2
    constructor <;> push_cast <;> nlinarith
  · refine ⟨by omega, by omega, ?_⟩
    dsimp only
    rw [hz, hd, ← sub_mul, abs_mul, abs_of_pos hp, abs_sub_comm]
    calc |(r : ℚ) - q| * 10 ^ e ≤ 1 / 2 * 10 ^ e := mul_le_mul_of_nonneg_right hn hp.le
      _ = 10 ^ e / 2 := by ring

/-- Numbers close to a one-digit decimal are rounded to it. -/
theorem sci_of_near {a : ℚ} {m : ℕ} {e : ℤ} (h1 : 1 ≤ m) (h9 : m ≤ 9)
    (h : |a - m * 10 ^ e| < 10 ^ e / 20) : sci a = (m, e) := by
  have hp : (0 : ℚ) < 10 ^ e := zpow_pos (by norm_num) _
  obtain ⟨k1, k2⟩ := abs_lt.mp h
  have hm1 : (1 : ℚ) ≤ m := by exact_mod_cast h1
  have hm9 : (m : ℚ) ≤ 9 := by exact_mod_cast h9
  by_cases hc : (10 : ℚ) ^ e ≤ a
  · have hl : Int.log 10 a = e := log_unique hc (by
      rw [zpow_add_one₀ (by norm_num)]; nlinarith)
    have hn := roundEven_near (a / 10 ^ e)
    obtain ⟨n1, n2⟩ := abs_le.mp hn
    have q1 : (m : ℚ) - 1 / 20 < a / 10 ^ e := by rw [lt_div_iff₀ hp]; linarith
    have q2 : a / 10 ^ e < m + 1 / 20 := by rw [div_lt_iff₀ hp]; linarith
    have r1 : (((m : ℤ) - 1 : ℤ) : ℚ) < roundEven (a / 10 ^ e) := by push_cast; linarith
    have r2 : ((roundEven (a / 10 ^ e) : ℤ) : ℚ) < ((m : ℤ) + 1 : ℤ) := by push_cast; linarith
    have r1 := Int.cast_lt.mp r1
    have r2 := Int.cast_lt.mp r2
    have hr : roundEven (a / 10 ^ e) = m := by omega
    unfold sci
    rw [hl]
    dsimp only
    rw [hr, Int.toNat_natCast, if_neg (by omega)]
  · rw [not_le] at hc
    have hm : m = 1 := by
      by_contra hne
      have : (2 : ℚ) ≤ m := by exact_mod_cast (by omega : 2 ≤ m)
      nlinarith
    subst hm
    have he : (10 : ℚ) ^ e = 10 ^ (e - 1) * 10 := by
      rw [← zpow_add_one₀ (by norm_num), sub_add_cancel]
    have hp' : (0 : ℚ) < 10 ^ (e - 1) := zpow_pos (by norm_num) _
    push_cast at k1
    have hl : Int.log 10 a = e - 1 := log_unique (by nlinarith) (by rw [sub_add_cancel]; exact hc)
    have hn := roundEven_near (a / 10 ^ (e - 1))
    obtain ⟨n1, n2⟩ := abs_le.mp hn
    have q1 : (19 / 2 : ℚ) < a / 10 ^ (e - 1) := by rw [lt_div_iff₀ hp']; nlinarith
    have q2 : a / 10 ^ (e - 1) < 10 := by rw [div_lt_iff₀ hp']; linarith
    have r1 : ((9 : ℤ) : ℚ) < roundEven (a / 10 ^ (e - 1)) := by push_cast; linarith
    have r2 : ((roundEven (a / 10 ^ (e - 1)) : ℤ) : ℚ) < (11 : ℤ) := by push_cast; linarith
    have r1 := Int.cast_lt.mp r1
    have r2 := Int.cast_lt.mp r2
    have hr : roundEven (a / 10 ^ (e - 1)) = 10 := by omega
    unfold sci
    rw [hl]
    dsimp only
    rw [hr]
    simp

/-! ### Digits -/

theorem digits_inj {j k : ℕ} (h : (toString j).toList = (toString k).toList) : j = k :=
  File.toString_inj (String.toList_inj.mp h)

theorem digits_isDigit {k : ℕ} {c : Char} (h : c ∈ (toString k).toList) : c.isDigit = true := by
  rw [Nat.toString_eq_repr, Nat.toList_repr] at h
  exact Nat.isDigit_of_mem_toDigits (by norm_num) (by norm_num) h

theorem notMem_digits {k : ℕ} {c : Char} (hc : c.isDigit = false) : c ∉ (toString k).toList :=
  fun h => by simp [digits_isDigit h] at hc

theorem digits_ne_nil (k : ℕ) : (toString k).toList ≠ [] := by
  rw [Nat.toString_eq_repr, Nat.toList_repr]
  exact Nat.toDigits_ne_nil

/-- The number a string of digits stands for. -/
theorem digits_value (k : ℕ) : Nat.ofDigitChars 10 (toString k).toList 0 = k := by
  have := File.parseKey_toString k
  exact this

theorem fmtExp_inj {e e' : ℤ} (h : fmtExp e = fmtExp e') : e = e' := by
  have hv : ∀ k : ℕ, Nat.ofDigitChars 10
      (if k < 10 then '0' :: (toString k).toList else (toString k).toList) 0 = k := by
    intro k
    split_ifs
    · rw [Nat.ofDigitChars_cons]
      exact digits_value k
    · exact digits_value k
  unfold fmtExp at h
  obtain ⟨h1, h2⟩ := List.cons.inj h
  have h3 := congrArg (fun l => Nat.ofDigitChars 10 l 0) h2
  simp only [hv] at h3
  have h4 : e < 0 ↔ e' < 0 := by
    by_cases c : e < 0 <;> by_cases c' : e' < 0
    · exact iff_of_true c c'
    · rw [if_pos c, if_neg c'] at h1; exact absurd h1 (by decide)
    · rw [if_neg c, if_pos c'] at h1; exact absurd h1 (by decide)
    · exact iff_of_false c c'
  omega

theorem append_cons_inj {c : Char} : ∀ {a b r s : Str}, c ∉ a → c ∉ b →
    a ++ c :: r = b ++ c :: s → a = b ∧ r = s
  | [], [], _, _, _, _, h => ⟨rfl, (List.cons.inj h).2⟩
  | [], y :: b, _, _, _, hb, h => absurd (List.mem_cons.mpr (Or.inl (List.cons.inj h).1)) hb
  | x :: a, [], _, _, ha, _, h => absurd (List.mem_cons.mpr (Or.inl (List.cons.inj h).1.symm)) ha
  | x :: a, y :: b, r, s, ha, hb, h => by
    obtain ⟨h1, h2⟩ := List.cons.inj h
    obtain ⟨h3, h4⟩ := append_cons_inj (fun m => ha (List.mem_cons_of_mem _ m))
      (fun m => hb (List.mem_cons_of_mem _ m)) h2
    exact ⟨by rw [h1, h3], h4⟩

/-! ### The text of a step size after `lower` -/

/-- The characters of formatted numbers. -/
def Plain (c : Char) : Prop := c.isDigit = true ∨ c = 'E' ∨ c = '+' ∨ c = '-'

theorem plain_fmtExp {e : ℤ} {c : Char} (h : c ∈ fmtExp e) : c.isDigit = true ∨ c = '+' ∨ c = '-' := by
  unfold fmtExp at h
  rcases List.mem_cons.mp h with h | h
  · split_ifs at h
    · exact Or.inr (Or.inr h)
    · exact Or.inr (Or.inl h)
  · split_ifs at h
    · rcases List.mem_cons.mp h with h | h
      · subst h; exact Or.inl rfl
      · exact Or.inl (digits_isDigit h)
    · exact Or.inl (digits_isDigit h)

theorem plain_fmtE {x : ℚ} {c : Char} (h : c ∈ fmtE x) : Plain c := by
  have hexp : ∀ e, c ∈ fmtExp e → Plain c := by
    intro e he
    rcases plain_fmtExp he with h | h | h
    · exact Or.inl h
    · exact Or.inr (Or.inr (Or.inl h))
    · exact Or.inr (Or.inr (Or.inr h))
  unfold fmtE at h
  split_ifs at h
  · rcases List.mem_cons.mp h with h | h
    · subst h; exact Or.inl rfl
    · rcases List.mem_cons.mp h with h | h
      · exact Or.inr (Or.inl h)
      · exact hexp _ h
  all_goals
    rcases List.mem_append.mp h with h | h
    · rcases List.mem_append.mp h with h | h
      · first
          | exact Or.inr (Or.inr (Or.inr (List.mem_singleton.mp h)))
          | exact absurd h (List.not_mem_nil)
      · exact Or.inl (digits_isDigit h)
    · rcases List.mem_cons.mp h with h | h
      · exact Or.inr (Or.inl h)
      · exact hexp _ h

theorem fmtE_inj {x y : ℚ} (h : fmtE x = fmtE y) :
    (x = 0 ∧ y = 0) ∨ (x ≠ 0 ∧ y ≠ 0 ∧ (x < 0 ↔ y < 0) ∧ sci |x| = sci |y|) := by
  have hE : ∀ k : ℕ, 'E' ∉ (toString k).toList := fun k => notMem_digits rfl
  have hmin : ∀ k : ℕ, '-' ∉ (toString k).toList := fun k => notMem_digits rfl
  have hneg : ∀ (p : Prop) [Decidable p] (k : ℕ),
      'E' ∉ (if p then ['-'] else []) ++ (toString k).toList := by
    intro p _ k hm
    rcases List.mem_append.mp hm with hm | hm
    · split_ifs at hm
      · exact absurd (List.mem_singleton.mp hm) (by decide)
      · exact absurd hm List.not_mem_nil
    · exact hE k hm
  have hz : ∀ z : ℚ, z ≠ 0 → '0' :: 'E' :: fmtExp 0 ≠
      (if z < 0 then ['-'] else []) ++ (toString (sci |z|).1).toList ++ 'E' :: fmtExp (sci |z|).2 := by
    intro z hz e
    have e' : ['0'] ++ 'E' :: fmtExp 0 = (if z < 0 then ['-'] else []) ++
      (toString (sci |z|).1).toList ++ 'E' :: fmtExp (sci |z|).2 := e
    obtain ⟨e1, -⟩ := append_cons_inj (by decide) (hneg _ _) e'
    have hs := sci_near (abs_pos.mpr hz)
    split_ifs at e1 with hc
    · exact absurd (List.cons.inj e1).1 (by decide)
    · have : (toString 0).toList = (toString (sci |z|).1).toList := e1
      have := digits_inj this
      omega
  unfold fmtE at h
  by_cases hx : x = 0 <;> by_cases hy : y = 0
  · exact Or.inl ⟨hx, hy⟩
  · rw [if_pos hx, if_neg hy] at h
    exact absurd h (hz y hy)
  · rw [if_neg hx, if_pos hy] at h
    exact absurd h.symm (hz x hx)
  · rw [if_neg hx, if_neg hy] at h
    obtain ⟨h1, h2⟩ := append_cons_inj (hneg _ _) (hneg _ _) h
    refine Or.inr ⟨hx, hy, ?_⟩
    have h3 := fmtExp_inj h2
    by_cases c : x < 0 <;> by_cases c' : y < 0
    · rw [if_pos c, if_pos c'] at h1
      exact ⟨iff_of_true c c', Prod.ext (digits_inj (List.cons.inj h1).2) h3⟩
    · rw [if_pos c, if_neg c'] at h1
      exact absurd (by rw [List.nil_append] at h1; rw [← h1]; exact List.mem_cons_self) (hmin (sci |y|).1)
    · rw [if_neg c, if_pos c'] at h1
      exact absurd (by rw [List.nil_append] at h1; rw [h1]; exact List.mem_cons_self) (hmin (sci |x|).1)
    · rw [if_neg c, if_neg c'] at h1
      exact ⟨iff_of_false c c', Prod.ext (digits_inj h1) h3⟩

/-- Equal digits, exponents and signs give the same text. -/
theorem fmtE_congr {x y : ℚ} (hx : x ≠ 0) (hy : y ≠ 0) (hs : x < 0 ↔ y < 0)
    (h : sci |x| = sci |y|) : fmtE x = fmtE y := by
  unfold fmtE
  rw [if_neg hx, if_neg hy, h]
  simp [hs]

/-! ### `sanitize` -/

theorem sanitize_append (a b : Str) : sanitize (a ++ b) = sanitize a ++ sanitize b := by
  simp [sanitize]

theorem sanitize_cons (c : Char) (a : Str) : sanitize (c :: a) = sanitize [c] ++ sanitize a :=
  sanitize_append [c] a

theorem toLower_eq_of_not_upper {c d : Char} (hd : d.isLower = false) (h : c.toLower = d) : c = d := by
  unfold Char.toLower at h
  split_ifs at h with hc
  · exfalso
    subst h
    simp only [Char.isLower, Bool.and_eq_false_iff, decide_eq_false_iff_not] at hd
    obtain ⟨h1, h2⟩ := hc
    simp only [ge_iff_le, UInt32.le_iff_toNat_le] at h1 h2 hd
    have e : (c.val + ('a'.val - 'A'.val)).toNat = c.val.toNat + 32 := by
      rw [UInt32.toNat_add]
      have : ('a'.val - 'A'.val).toNat = 32 := by decide
      rw [this]
      have : 'Z'.val.toNat = 90 := by decide
      omega
    rw [e] at hd
    have a1 : 'A'.val.toNat = 65 := by decide
    have a2 : 'Z'.val.toNat = 90 := by decide
    have a3 : 'a'.val.toNat = 97 := by decide
    have a4 : 'z'.val.toNat = 122 := by decide
    omega
  · exact h

theorem slash_notMem_sanitize {s : Str} (h : '/' ∉ s) : '/' ∉ sanitize s := by
  unfold sanitize
  intro hm
  obtain ⟨c, hc, e⟩ := List.mem_map.mp hm
  have := toLower_eq_of_not_upper (d := '/') rfl e
  subst this
  obtain ⟨hc, -⟩ := List.mem_filter.mp hc
  obtain ⟨d, hd, e⟩ := List.mem_map.mp hc
  split_ifs at e with hs
  · exact absurd e (by decide)
  · subst e; exact h hd

/-- `lower` of the characters of numbers. -/
def low (c : Char) : Char := if c = 'E' then 'e' else c

theorem toLower_of_digit {c : Char} (h : c.isDigit = true) : c.toLower = c := by
  unfold Char.toLower
  rw [dif_neg]
  rintro ⟨h1, h2⟩
  simp only [Char.isDigit, Bool.and_eq_true, decide_eq_true_eq] at h
  simp only [ge_iff_le, UInt32.le_iff_toNat_le] at h1 h
  have a1 : 'A'.val.toNat = 65 := by decide
  have a2 : '9'.val.toNat = 57 := by decide
  omega

theorem sanitize_plain : ∀ {s : Str}, (∀ c ∈ s, Plain c) → sanitize s = s.map low
  | [], _ => rfl
  | c :: s, h => by
    rw [sanitize_cons, sanitize_plain fun d hd => h d (List.mem_cons_of_mem _ hd), List.map_cons]
    have : sanitize [c] = [low c] := by
      rcases h c List.mem_cons_self with h | h | h | h
      · have h1 : c ≠ ' ' := by rintro rfl; simp at h
        have h2 : c ≠ ',' := by rintro rfl; simp at h
        have h3 : c ≠ 'E' := by rintro rfl; simp at h
        simp [sanitize, low, h1, h2, h3, toLower_of_digit h]
      all_goals subst h; rfl
    rw [this]
    rfl

theorem low_inj {c d : Char} (hc : Plain c) (hd : Plain d) (h : low c = low d) : c = d := by
  unfold low at h
  have he : ∀ {c : Char}, Plain c → c ≠ 'e' := by
    rintro c h rfl
    rcases h with h | h | h | h
    · simp at h
    all_goals exact absurd h (by decide)
  split_ifs at h with h1 h2 h2
  · rw [h1, h2]
  · exact absurd h.symm (he hd)
  · exact absurd h (he hc)
  · exact h

theorem map_low_inj : ∀ {s t : Str}, (∀ c ∈ s, Plain c) → (∀ c ∈ t, Plain c) →
    s.map low = t.map low → s = t
  | [], [], _, _, _ => rfl
  | [], _ :: _, _, _, h => by simp at h
  | _ :: _, [], _, _, h => by simp at h
  | c :: s, d :: t, hs, ht, h => by
    obtain ⟨h1, h2⟩ := List.cons.inj h
    rw [low_inj (hs c List.mem_cons_self) (ht d List.mem_cons_self) h1,
      map_low_inj (fun c hc => hs c (List.mem_cons_of_mem _ hc))
        (fun c hc => ht c (List.mem_cons_of_mem _ hc)) h2]

theorem underscore_notMem {x : ℚ} : '_' ∉ sanitize (fmtE x) := by
  rw [sanitize_plain fun c => plain_fmtE]
  intro hm
  obtain ⟨c, hc, e⟩ := List.mem_map.mp hm
  unfold low at e
  split_ifs at e with h
  · exact absurd e (by decide)
  · subst e
    rcases plain_fmtE hc with h | h | h | h
    · simp at h
    all_goals exact absurd h (by decide)

theorem slash_notMem_fmtE {x : ℚ} : '/' ∉ fmtE x := by
  intro h
  rcases plain_fmtE h with h | h | h | h
  · simp at h
  all_goals exact absurd h (by decide)

/-! ### Paths -/

theorem parts_single {s : Str} (h : '/' ∉ s) (h0 : s ≠ []) (h1 : s ≠ ['.']) : parts s = [s] := by
  unfold parts
  rw [List.splitOn_eq_singleton h]
  simp [h0, h1]

theorem join_single {p : Path} {s : Str} (h : '/' ∉ s) (h0 : s ≠ []) (h1 : s ≠ ['.']) :
    join p s = p ++ [s] := by
  unfold join
  rw [parts_single h h0 h1, if_neg]
  intro hs
  exact h (List.mem_of_mem_head? hs)

theorem join_file {p : Path} {dir s : Str} (hd : '/' ∉ dir) (hd0 : dir ≠ []) (hd1 : dir ≠ ['.'])
    (h : '/' ∉ s) : join (join p dir) (s ++ ".h5".toList) = p ++ [dir, s ++ ".h5".toList] := by
  rw [join_single hd hd0 hd1, join_single, List.append_assoc]
  · rfl
  · intro hm
    rcases List.mem_append.mp hm with hm | hm
    · exact h hm
    · exact absurd hm (by decide)
  · simp
  · intro e
    have := congrArg List.length e
    simp at this

theorem append_two_inj {p q : Path} {a b c d : Str} (h : p ++ [a, b] = q ++ [c, d]) :
    p = q ∧ a = c ∧ b = d := by
  have := List.append_inj' h rfl
  simp_all

/-- The file of an adaptive or average run. -/
theorem path_str {folder : Path} {n s : Str} (hs : s = sAdaptive ∨ s = sAverage) (hn : '/' ∉ n) :
    getFilePath folder n (.str s)
      = .ok (sanitize n, folder ++ [s, sanitize n ++ ".h5".toList]) := by
  unfold getFilePath
  dsimp only
  rw [if_neg (by rcases hs with h | h <;> simp [h]),
    join_file _ _ _ (slash_notMem_sanitize hn)]
  all_goals rcases hs with h | h <;> subst h <;> decide

/-- The file of a run with a given step size. -/
theorem path_num {folder : Path} {n : Str} {x : ℚ} (hn : '/' ∉ n) :
    getFilePath folder n (.num x) = .ok ("data_".toList ++ sanitize (fmtE x) ++ '_' :: sanitize n,
      folder ++ [sFixed, ("data_".toList ++ sanitize (fmtE x) ++ '_' :: sanitize n) ++
        ".h5".toList]) := by
  have hs : sanitize ("data_".toList ++ fmtE x ++ '_' :: n)
      = "data_".toList ++ sanitize (fmtE x) ++ '_' :: sanitize n := by
    rw [sanitize_append, sanitize_append, sanitize_cons]
    rfl
  have h1 : '/' ∉ "data_".toList ++ fmtE x ++ '_' :: n := by
    simp only [List.mem_append, List.mem_cons, not_or]
    exact ⟨⟨by decide, slash_notMem_fmtE⟩, by decide, hn⟩
  unfold getFilePath
  dsimp only
  rw [join_file (by decide) (by decide) (by decide) (slash_notMem_sanitize h1), hs]

end Verif.Problems
