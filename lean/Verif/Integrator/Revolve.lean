/-
Schedules for a given number of checkpoints.

The package pyrevolve is not part of /repo, so its scheduler is not modelled. Here are the schedules
of the method it is known for: the segment of steps that is to be reversed is divided, the state at
the point of division is saved, the right part is reversed first, then the state at the beginning is
loaded and the left part is reversed. Where to divide is an arbitrary function (Revolve uses binomial
coefficients). The numbers of checkpoints are those the user gives as `n_checkpoints`
(pyrevolve_checkpointer.py L92-96).
-/
import Verif.Integrator.Pyrevolve
import Mathlib.Data.Nat.Choose.Basic

namespace Verif.Integrator

/-- The length of the left part of a segment of `len` steps, for any wish. -/
def leftPart (wish len : ℕ) : ℕ := max 1 (min wish (len - 1))

theorem leftPart_lt {wish len : ℕ} (h : 2 ≤ len) :
    1 ≤ leftPart wish len ∧ leftPart wish len < len := by
  unfold leftPart; omega

/-- Actions that reverse the `len` steps from index `a`, which is the index of the live state and of
the state in slot `i`; `free` further slots `i + 1, i + 2, ...` can be used. -/
def reverseSegment (split : ℕ → ℕ → ℕ) (a len i free : ℕ) : List Act :=
  if h : len < 2 then (if len = 0 then [] else [.reverse a])
  else
    have := leftPart_lt (wish := split len free) (Nat.le_of_not_lt h)
    match free with
    | 0 => .advance a (a + (len - 1)) :: .reverse (a + (len - 1)) :: .restore i ::
        reverseSegment split a (len - 1) i 0
    | free + 1 =>
      let k := leftPart (split len (free + 1)) len
      .advance a (a + k) :: .takeshot (i + 1) ::
        (reverseSegment split (a + k) (len - k) (i + 1) free ++
          .restore i :: reverseSegment split a k i (free + 1))
  termination_by len

/-- The same for the segment at the end, whose last step is not reversed here: the actions before
the end of the forward phase, and those behind it. -/
def lastSegment (split : ℕ → ℕ → ℕ) (a len i free : ℕ) : List Act × List Act :=
  if h : len < 2 then ([.lastfw a], [])
  else
    have := leftPart_lt (wish := split len free) (Nat.le_of_not_lt h)
    match free with
    | 0 => ([.advance a (a + (len - 1)), .lastfw (a + (len - 1))],
        .restore i :: reverseSegment split a (len - 1) i 0)
    | free + 1 =>
      let k := leftPart (split len (free + 1)) len
      let r := lastSegment split (a + k) (len - k) (i + 1) free
      (.advance a (a + k) :: .takeshot (i + 1) :: r.1,
        r.2 ++ .restore i :: reverseSegment split a k i (free + 1))
  termination_by len

/-- The schedule for last index `n + 1` and `free + 1` checkpoints. -/
def recursiveSchedule (split : ℕ → ℕ → ℕ) (n free : ℕ) : Schedule :=
  ⟨.takeshot 0 :: (lastSegment split 0 (n + 1) 0 free).1, n,
    (lastSegment split 0 (n + 1) 0 free).2⟩

/-- The slots an action writes to. -/
def Act.writesTo : Act → Option ℕ
  | .takeshot j => some j
  | _ => none

/-- The number of steps of the forward run an action does, for last index `n`. -/
def Act.work (n : ℕ) : Act → ℕ
  | .advance old capo => capo - old
  | .lastfw old => n - old
  | .reverse _ => 1
  | .takeshot _ => 0
  | .restore _ => 0

/-- The number of steps of the forward run a list of actions does. -/
def workOf (n : ℕ) (acts : List Act) : ℕ := (acts.map (Act.work n)).sum

/-! ### They are legal -/

theorem reverseSegment_legal (split : ℕ → ℕ → ℕ) {n : ℕ} (len : ℕ) :
    ∀ (a i free : ℕ) (sl : ℕ → Option ℕ) (acts : List Act), a + len ≤ n → sl i = some a →
      (∀ sl' k, (∀ j ≤ i, sl' j = sl j) → LegalR n acts k sl' a) →
      LegalR n (reverseSegment split a len i free ++ acts) a sl (a + len) := by
  induction len using Nat.strong_induction_on with
  | _ len ih =>
    intro a i free sl acts hn hi hacts
    rw [reverseSegment]
    split_ifs with h h0
    · subst h0
      exact hacts sl a fun _ _ => rfl
    · have h1 : len = 1 := by omega
      subst h1
      exact .reverse (hacts sl _ fun _ _ => rfl)
    · rcases free with _ | free
      · rw [show a + len = a + (len - 1) + 1 by omega]
        refine .advance (by omega) (by omega) (.reverse (.restore hi ?_))
        exact ih (len - 1) (by omega) a i 0 sl acts (by omega) hi hacts
      · have hk := leftPart_lt (wish := split len (free + 1)) (Nat.le_of_not_lt h)
        dsimp only
        set k := leftPart (split len (free + 1)) len
        rw [List.cons_append, List.cons_append, List.append_assoc]
        refine .advance (by omega) (by omega) (.takeshot ?_)
        have e : a + len = a + k + (len - k) := by omega
        rw [e]
        refine ih (len - k) (by omega) (a + k) (i + 1) free _ _ (by omega)
          (Function.update_self _ _ _) ?_
        intro sl' k' hsl'
        have hold : ∀ j ≤ i, sl' j = sl j := fun j hj => by
          rw [hsl' j (by omega), Function.update_of_ne (by omega)]
        refine .restore (k := a) (by rw [hold i (Nat.le_refl i), hi]) ?_
        refine ih k (by omega) a i (free + 1) sl' acts (by omega) (by rw [hold i (Nat.le_refl i), hi]) ?_
        intro sl'' k'' hsl''
        exact hacts sl'' k'' fun j hj => (hsl'' j hj).trans (hold j hj)

theorem lastSegment_legal (split : ℕ → ℕ → ℕ) {n : ℕ} (len : ℕ) :
    ∀ (a i free : ℕ) (sl : ℕ → Option ℕ), 0 < len → a + len = n → sl i = some a →
      ∃ sl', (∀ j ≤ i, sl' j = sl j) ∧
        LegalF n (lastSegment split a len i free).1 a sl sl' ∧
        ∀ (acts : List Act) (k : ℕ),
          (∀ sl'' k', (∀ j ≤ i, sl'' j = sl j) → LegalR n acts k' sl'' a) →
          LegalR n ((lastSegment split a len i free).2 ++ acts) k sl' (n - 1) := by
  induction len using Nat.strong_induction_on with
  | _ len ih =>
    intro a i free sl hpos hn hi
    rw [lastSegment]
    split_ifs with h
    · have h1 : len = 1 := by omega
      subst h1
      refine ⟨sl, fun _ _ => rfl, .lastfw (by omega), fun acts k hacts => ?_⟩
      rw [show n - 1 = a by omega]
      exact hacts sl k fun _ _ => rfl
    · rcases free with _ | free
      · refine ⟨sl, fun _ _ => rfl, .advance (by omega) (by omega) (.lastfw (by omega)),
          fun acts k hacts => ?_⟩
        refine .restore hi ?_
        rw [show n - 1 = a + (len - 1) by omega]
        exact reverseSegment_legal split (len - 1) a i 0 sl acts (by omega) hi hacts
      · have hk := leftPart_lt (wish := split len (free + 1)) (Nat.le_of_not_lt h)
        dsimp only
        set k := leftPart (split len (free + 1)) len
        obtain ⟨sl', h1, h2, h3⟩ := ih (len - k) (by omega) (a + k) (i + 1) free
          (Function.update sl (i + 1) (some (a + k))) (by omega) (by omega)
          (Function.update_self _ _ _)
        have hold : ∀ sl'' : ℕ → Option ℕ, (∀ j ≤ i + 1, sl'' j
            = Function.update sl (i + 1) (some (a + k)) j) → ∀ j ≤ i, sl'' j = sl j :=
          fun sl'' hs j hj => by rw [hs j (by omega), Function.update_of_ne (by omega)]
        refine ⟨sl', hold sl' h1, .advance (by omega) (by omega) (.takeshot h2),
          fun acts k' hacts => ?_⟩
        rw [List.append_assoc]
        refine h3 _ k' fun sl'' k'' hs => ?_
        have hi'' : sl'' i = some a := by rw [hold sl'' hs i (Nat.le_refl i), hi]
        refine .restore (k := a) hi'' ?_
        refine reverseSegment_legal split k a i (free + 1) sl'' acts (by omega) hi'' ?_
        intro sl3 k3 h4
        exact hacts sl3 k3 fun j hj => (h4 j hj).trans (hold sl'' hs j hj)

theorem recursiveSchedule_legal (split : ℕ → ℕ → ℕ) (n free : ℕ) :
    Legal (n + 1) (recursiveSchedule split n free) := by
  obtain ⟨sl, -, h2, h3⟩ := lastSegment_legal split (n := n + 1) (n + 1) 0 0 free
    (Function.update (fun _ => none) 0 (some 0)) (by omega) (by omega) (Function.update_self _ _ _)
  refine ⟨rfl, sl, .takeshot h2, ?_⟩
  have := h3 [] (n + 1) fun _ _ _ => .done
  simpa [recursiveSchedule] using this

/-! ### Slots and work -/

theorem reverseSegment_slots (split : ℕ → ℕ → ℕ) (len : ℕ) :
    ∀ (a i free : ℕ), ∀ act ∈ reverseSegment split a len i free, ∀ j, act.writesTo = some j →
      i < j ∧ j ≤ i + free := by
  induction len using Nat.strong_induction_on with
  | _ len ih =>
    intro a i free act hact j hj
    rw [reverseSegment] at hact
    split_ifs at hact with h h0
    · simp at hact
    · rw [List.mem_singleton] at hact
      subst hact
      simp [Act.writesTo] at hj
    · rcases free with _ | free
      · simp only [List.mem_cons] at hact
        rcases hact with rfl | rfl | rfl | hact
        · simp [Act.writesTo] at hj
        · simp [Act.writesTo] at hj
        · simp [Act.writesTo] at hj
        · exact ih (len - 1) (by omega) a i 0 act hact j hj
      · have hk := leftPart_lt (wish := split len (free + 1)) (Nat.le_of_not_lt h)
        simp only [List.mem_cons, List.mem_append] at hact
        rcases hact with rfl | rfl | hact | rfl | hact
        · simp [Act.writesTo] at hj
        · simp only [Act.writesTo, Option.some.injEq] at hj
          omega
        · have := ih _ (by omega) _ _ _ act hact j hj
          omega
        · simp [Act.writesTo] at hj
        · exact ih _ (by omega) a i (free + 1) act hact j hj

theorem lastSegment_slots (split : ℕ → ℕ → ℕ) (len : ℕ) :
    ∀ (a i free : ℕ), ∀ act ∈ (lastSegment split a len i free).1
        ++ (lastSegment split a len i free).2, ∀ j, act.writesTo = some j →
      i < j ∧ j ≤ i + free := by
  induction len using Nat.strong_induction_on with
  | _ len ih =>
    intro a i free act hact j hj
    rw [lastSegment] at hact
    split_ifs at hact with h
    · simp only [List.append_nil, List.mem_singleton] at hact
      subst hact
      simp [Act.writesTo] at hj
    · rcases free with _ | free
      · simp only [List.mem_cons, List.mem_append, List.not_mem_nil, or_false] at hact
        rcases hact with (rfl | rfl) | rfl | hact
        · simp [Act.writesTo] at hj
        · simp [Act.writesTo] at hj
        · simp [Act.writesTo] at hj
        · exact reverseSegment_slots split _ a i 0 act hact j hj
      · have hk := leftPart_lt (wish := split len (free + 1)) (Nat.le_of_not_lt h)
        simp only [List.mem_cons, List.mem_append] at hact
        have hrec := ih (len - leftPart (split len (free + 1)) len) (by omega)
          (a + leftPart (split len (free + 1)) len) (i + 1) free act
        rw [List.mem_append] at hrec
        rcases hact with (rfl | rfl | hact) | hact | rfl | hact
        · simp [Act.writesTo] at hj
        · simp only [Act.writesTo, Option.some.injEq] at hj
          omega
        · have := hrec (.inl hact) j hj
          omega
        · have := hrec (.inr hact) j hj
          omega
        · simp [Act.writesTo] at hj
        · exact reverseSegment_slots split _ a i (free + 1) act hact j hj

theorem lastSegment_noRestore (split : ℕ → ℕ → ℕ) (len : ℕ) :
    ∀ (a i free : ℕ), NoRestore (lastSegment split a len i free).1 := by
  induction len using Nat.strong_induction_on with
  | _ len ih =>
    intro a i free j hj
    rw [lastSegment] at hj
    split_ifs at hj with h
    · simp at hj
    · rcases free with _ | free
      · simp at hj
      · have hk := leftPart_lt (wish := split len (free + 1)) (Nat.le_of_not_lt h)
        simp only [List.mem_cons, reduceCtorEq, false_or] at hj
        exact ih _ (by omega) _ _ _ j hj

theorem enough_repetitions (len free : ℕ) : len ≤ (free + 1 + len).choose (free + 1) := by
  induction free with
  | zero => rw [Nat.choose_one_right]; omega
  | succ f ih =>
    rw [show f + 1 + 1 + len = (f + 1 + len) + 1 by omega, Nat.choose_succ_succ]
    omega

/-- How often each step has to be done to reverse `len` steps with `free + 1` slots, besides the
reverse step itself. -/
def repetitions (len free : ℕ) : ℕ :=
  Nat.find (p := fun r => len ≤ (free + 1 + r).choose (free + 1)) ⟨len, enough_repetitions len free⟩

/-- Dividing by binomial coefficients: the left part is as long as what can be reversed with one
repetition less. -/
def binomialSplit (len free : ℕ) : ℕ :=
  (free + repetitions len free).choose (free + 1)

theorem binomial_left {len free : ℕ} (h : 2 ≤ len) :
    ∃ r, len ≤ (free + 1 + (r + 1)).choose (free + 1) ∧
      (∀ r', len ≤ (free + 1 + r').choose (free + 1) → r + 1 ≤ r') ∧
      leftPart (binomialSplit len free) len = (free + 1 + r).choose (free + 1) := by
  have hspec : len ≤ (free + 1 + repetitions len free).choose (free + 1) :=
    Nat.find_spec (p := fun r => len ≤ (free + 1 + r).choose (free + 1)) _
  have hmin : ∀ r', len ≤ (free + 1 + r').choose (free + 1) → repetitions len free ≤ r' :=
    fun r' hr' => Nat.find_min' _ hr'
  rcases hr : repetitions len free with _ | r
  · rw [hr] at hspec
    simp only [Nat.add_zero, Nat.choose_self] at hspec
    omega
  · rw [hr] at hspec hmin
    refine ⟨r, hspec, hmin, ?_⟩
    have hlt : (free + 1 + r).choose (free + 1) < len := by
      by_contra hc
      have := hmin r (by omega)
      omega
    have hpos : 0 < (free + 1 + r).choose (free + 1) := Nat.choose_pos (by omega)
    rw [binomialSplit, hr, show free + (r + 1) = free + 1 + r by omega, leftPart]
    omega

theorem workOf_cons (n : ℕ) (act : Act) (acts : List Act) :
    workOf n (act :: acts) = act.work n + workOf n acts := by
  simp [workOf]

theorem workOf_append (n : ℕ) (a b : List Act) : workOf n (a ++ b) = workOf n a + workOf n b := by
  simp [workOf]

theorem reverseSegment_work {n : ℕ} (len : ℕ) : ∀ (a i free r : ℕ),
    len ≤ (free + 1 + r).choose (free + 1) →
    workOf n (reverseSegment binomialSplit a len i free) ≤ (r + 1) * len := by
  induction len using Nat.strong_induction_on with
  | _ len ih =>
    intro a i free r hr
    rw [reverseSegment]
    split_ifs with h h0
    · simp [workOf]
    · have h1 : len = 1 := by omega
      subst h1
      simp [workOf, Act.work]
    · rcases free with _ | free
      · simp only [zero_add, Nat.choose_one_right] at hr
        obtain ⟨r, rfl⟩ : ∃ r', r = r' + 1 := ⟨r - 1, by omega⟩
        have := ih (len - 1) (by omega) a i 0 r (by simp; omega)
        simp only [workOf_cons, Act.work]
        obtain ⟨l, rfl⟩ : ∃ l, len = l + 1 := ⟨len - 1, by omega⟩
        simp only [Nat.add_sub_cancel] at *
        rw [Nat.add_sub_cancel_left]
        nlinarith
      · obtain ⟨r0, h1, h2, h3⟩ := binomial_left (free := free + 1) (Nat.le_of_not_lt h)
        have hle := h2 r hr
        have hk := leftPart_lt (wish := binomialSplit len (free + 1)) (Nat.le_of_not_lt h)
        dsimp only
        set k := leftPart (binomialSplit len (free + 1)) len
        have hright : len - k ≤ (free + 1 + (r0 + 1)).choose (free + 1) := by
          rw [show free + 1 + 1 + (r0 + 1) = (free + 1 + (r0 + 1)) + 1 by omega,
            Nat.choose_succ_succ] at h1
          rw [show free + 1 + 1 + r0 = free + 1 + (r0 + 1) by omega] at h3
          simp only [Nat.succ_eq_add_one] at h1
          omega
        have e1 := ih (len - k) (by omega) (a + k) (i + 1) free (r0 + 1) hright
        have e2 := ih k (by omega) a i (free + 1) r0 (by omega)
        simp only [workOf_cons, workOf_append, Act.work]
        obtain ⟨l, hl⟩ : ∃ l, len = l + k := ⟨len - k, by omega⟩
        rw [show len - k = l by omega] at e1 ⊢
        calc a + k - a + (0 + (workOf n (reverseSegment binomialSplit (a + k) l (i + 1) free) +
              (0 + workOf n (reverseSegment binomialSplit a k i (free + 1)))))
            ≤ k + ((r0 + 1 + 1) * l + (r0 + 1) * k) := by omega
          _ = (r0 + 1 + 1) * len := by rw [hl]; ring
          _ ≤ (r + 1) * len := Nat.mul_le_mul_right _ (by omega)

theorem lastSegment_work {n : ℕ} (len : ℕ) : ∀ (a i free r : ℕ), 0 < len → a + len = n →
    len ≤ (free + 1 + r).choose (free + 1) →
    workOf n (lastSegment binomialSplit a len i free).1
      + workOf n (lastSegment binomialSplit a len i free).2 ≤ (r + 1) * len := by
  induction len using Nat.strong_induction_on with
  | _ len ih =>
    intro a i free r hpos hn hr
    rw [lastSegment]
    split_ifs with h
    · have h1 : len = 1 := by omega
      subst h1
      simp only [workOf_cons, Act.work]
      simp only [workOf, List.map_nil, List.sum_nil]
      omega
    · rcases free with _ | free
      · simp only [zero_add, Nat.choose_one_right] at hr
        obtain ⟨r, rfl⟩ : ∃ r', r = r' + 1 := ⟨r - 1, by omega⟩
        have := reverseSegment_work (n := n) (len - 1) a i 0 r (by simp; omega)
        simp only [workOf_cons, Act.work]
        obtain ⟨l, rfl⟩ : ∃ l, len = l + 1 := ⟨len - 1, by omega⟩
        simp only [Nat.add_sub_cancel] at *
        have : workOf n [] = 0 := rfl
        rw [this]
        have h4 : n - (a + l) = 1 := by omega
        rw [h4, Nat.add_sub_cancel_left]
        nlinarith
      · obtain ⟨r0, h1, h2, h3⟩ := binomial_left (free := free + 1) (Nat.le_of_not_lt h)
        have hle := h2 r hr
        have hk := leftPart_lt (wish := binomialSplit len (free + 1)) (Nat.le_of_not_lt h)
        dsimp only
        set k := leftPart (binomialSplit len (free + 1)) len
        have hright : len - k ≤ (free + 1 + (r0 + 1)).choose (free + 1) := by
          rw [show free + 1 + 1 + (r0 + 1) = (free + 1 + (r0 + 1)) + 1 by omega,
            Nat.choose_succ_succ] at h1
          rw [show free + 1 + 1 + r0 = free + 1 + (r0 + 1) by omega] at h3
          simp only [Nat.succ_eq_add_one] at h1
          omega
        have e1 := ih (len - k) (by omega) (a + k) (i + 1) free (r0 + 1) (by omega) (by omega) hright
        have e2 := reverseSegment_work (n := n) k a i (free + 1) r0 (by omega)
        simp only [workOf_cons, workOf_append, Act.work]
        obtain ⟨l, hl⟩ : ∃ l, len = l + k := ⟨len - k, by omega⟩
        rw [show len - k = l by omega] at e1 ⊢
        calc a + k - a + (0 + workOf n (lastSegment binomialSplit (a + k) l (i + 1) free).1) +
              (workOf n (lastSegment binomialSplit (a + k) l (i + 1) free).2 +
              (0 + workOf n (reverseSegment binomialSplit a k i (free + 1))))
            ≤ k + ((r0 + 1 + 1) * l + (r0 + 1) * k) := by omega
          _ = (r0 + 1 + 1) * len := by rw [hl]; ring
          _ ≤ (r + 1) * len := Nat.mul_le_mul_right _ (by omega)

end Verif.Integrator
