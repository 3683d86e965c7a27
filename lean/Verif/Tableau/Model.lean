/-
Model of the Butcher tableau classes.

Source: /repo/src/rkopenmdao/butcher_tableau.py

Simplifications (whole file): entries are elements of a linearly ordered field (no rounding);
the matrix argument is two-dimensional and the vector arguments are one-dimensional; in-place
modification of the arrays after construction is not modelled; printing (L185-217, L372-410)
is in `Verif.Tableau.Text`.
-/
import Mathlib.Algebra.Order.Field.Basic
import Mathlib.Algebra.BigOperators.Fin
import Mathlib.Data.List.FinRange
import Verif.RK.Model

namespace Verif.Tableau

/-- A two-dimensional NumPy array with its shape (argument `butcher_matrix`, L56). -/
structure Mat (K : Type) where
  rows : ℕ
  cols : ℕ
  entry : Fin rows → Fin cols → K

/-- A one-dimensional NumPy array with its length (arguments at L57-58). -/
structure Vec (K : Type) where
  len : ℕ
  entry : Fin len → K

/-- The exceptions raised by construction and order queries (L65, L74 via broadcasting, L86,
L97, L269, L318; `TypeError` when `min` compares `None`, L338). -/
inductive Err
  | valueError
  | assertionError
  | typeError
  deriving DecidableEq, Repr

/-- The two warnings of the constructor (L69, L75-78). -/
inductive Warn
  | weights
  | nodes
  deriving DecidableEq, Repr

/-- A constructed `ButcherTableau`, attributes set at L66-81. -/
@[ext] structure Tableau (K : Type) where
  stages : ℕ
  A : Fin stages → Fin stages → K
  b : Fin stages → K
  c : Fin stages → K
  p : Option ℕ
  name : String

/-- The coefficients the discretization reads. -/
def Tableau.coeffs {K : Type} (T : Tableau K) : RK.Coeffs K T.stages := ⟨T.A, T.b, T.c⟩

variable {K : Type} [Field K] [LinearOrder K]

/-- `np.sum(self.butcher_matrix, 1)`, L71/L74. -/
def rowSums (A : Mat K) : Vec K := ⟨A.rows, fun i => ∑ j, A.entry i j⟩

/-- `rowsums - butcher_time_stages` with NumPy broadcasting of one-dimensional arrays (L74):
equal lengths are subtracted entry by entry, a length one operand is repeated, everything else
raises `ValueError` (`none`). -/
def broadcastSub (u v : Vec K) : Option (List K) :=
  if h : u.len = v.len then
    some ((List.finRange u.len).map fun i => u.entry i - v.entry (i.cast h))
  else if h : v.len = 1 then
    some ((List.finRange u.len).map fun i => u.entry i - v.entry (Fin.cast h.symm 0))
  else if h : u.len = 1 then
    some ((List.finRange v.len).map fun i => u.entry (Fin.cast h.symm 0) - v.entry i)
  else none

/-- `np.all(diff) >= 1e-5` (L74): `np.all` is a boolean, so the comparison is true exactly when
all entries are nonzero. -/
def nodeCheck (diff : List K) : Bool := diff.all fun d => decide (d ≠ 0)

/-- `np.abs(np.sum(weights) - 1.0) > 1e-5` (L68). -/
def weightCheck (b : Vec K) : Bool := decide (1 / 100000 < |(∑ i, b.entry i) - 1|)

/-- The size check at L82-86 and the resulting object. -/
def finish (A : Mat K) (b c : Vec K) (p : Option ℕ) (name : String) : Except Err (Tableau K) :=
  if h : A.rows = b.len ∧ A.cols = b.len ∧ c.len = b.len then
    .ok ⟨b.len, fun i j => A.entry (i.cast h.1.symm) (j.cast h.2.1.symm), b.entry,
      fun i => c.entry (i.cast h.2.2.symm), p, name⟩
  else .error .assertionError

/-- `ButcherTableau.__init__`, L54-86: the warnings issued and the outcome. -/
def construct (A : Mat K) (b : Vec K) (c : Option (Vec K)) (p : Option ℕ) (name : String) :
    List Warn × Except Err (Tableau K) :=
  if A.rows ≠ A.cols then ([], .error .valueError)
  else
    let w1 := if weightCheck b then [Warn.weights] else []
    match c with
    | none => (w1, finish A b (rowSums A) p name)
    | some c =>
      match broadcastSub (rowSums A) c with
      | none => (w1, .error .valueError)
      | some d => (w1 ++ (if nodeCheck d then [Warn.nodes] else []), finish A b c p name)

/-- The property `p`, L88-98. -/
def Tableau.order {K : Type} (T : Tableau K) : Except Err ℕ :=
  match T.p with
  | none => .error .valueError
  | some p => .ok p

/-- `is_explicit`, L137-149: two nested loops with early return. -/
def isExplicit (T : Tableau K) : Bool :=
  (List.finRange T.stages).all fun i =>
    ((List.finRange T.stages).drop i.val).all fun j => !decide (T.A i j ≠ 0)

/-- `is_diagonally_implicit`, L151-167. -/
def isDiagonallyImplicit (T : Tableau K) : Bool :=
  if isExplicit T then false
  else (List.finRange T.stages).all fun i =>
    ((List.finRange T.stages).drop (i.val + 1)).all fun j => !decide (T.A i j ≠ 0)

/-- `is_implicit`, L169-180. -/
def isImplicit (T : Tableau K) : Bool :=
  if isExplicit T || isDiagonallyImplicit T then false else true

/-- A constructed `EmbeddedButcherTableau`, L271-276. -/
structure EmbTableau (K : Type) extends Tableau K where
  bhat : Fin stages → K
  phat : Option ℕ

/-- `EmbeddedButcherTableau.__init__`, L251-276. -/
def constructEmb (A : Mat K) (b bhat : Vec K) (c : Option (Vec K)) (p phat : Option ℕ)
    (name : String) : List Warn × Except Err (EmbTableau K) :=
  match construct A b c p name with
  | (w, .error e) => (w, .error e)
  | (w, .ok T) =>
    if h : bhat.len = T.stages then
      (w, .ok ⟨T, fun i => bhat.entry (i.cast h.symm), phat⟩)
    else (w, .error .assertionError)

/-- The arrays of a tableau as constructor arguments. -/
def matOf {K : Type} (T : Tableau K) : Mat K := ⟨T.stages, T.stages, T.A⟩
def weightsOf {K : Type} (T : Tableau K) : Vec K := ⟨T.stages, T.b⟩
def nodesOf {K : Type} (T : Tableau K) : Vec K := ⟨T.stages, T.c⟩

/-- `EmbeddedButcherTableau.from_butchertableau`, L278-308. -/
def fromButcherTableau (T : Tableau K) (bhat : Vec K) (phat : Option ℕ) (name : Option String) :
    List Warn × Except Err (EmbTableau K) :=
  let nm := match name with
    | none => "Adaptive " ++ T.name
    | some x => x
  match T.order with
  | .error e => ([], .error e)
  | .ok p => constructEmb (matOf T) (weightsOf T) bhat (some (nodesOf T)) (some p) phat nm

/-- The property `phat`, L310-319. -/
def EmbTableau.orderHat {K : Type} (T : EmbTableau K) : Except Err ℕ :=
  match T.phat with
  | none => .error .valueError
  | some p => .ok p

/-- `min_p_order` of an embedded tableau, L329-338: `min` of two numbers; comparing `None`
raises `TypeError`. -/
def EmbTableau.minPOrder {K : Type} (T : EmbTableau K) : Except Err ℕ :=
  match T.p, T.phat with
  | some p, some q => .ok (if q < p then q else p)
  | _, _ => .error .typeError

/-- `main_method`, L340-354. -/
def EmbTableau.mainMethod (T : EmbTableau K) : List Warn × Except Err (Tableau K) :=
  construct (matOf T.toTableau) (weightsOf T.toTableau) (some (nodesOf T.toTableau)) T.p
    ("Main: " ++ T.name)

/-- `embedded_method`, L356-370. -/
def EmbTableau.embeddedMethod (T : EmbTableau K) : List Warn × Except Err (Tableau K) :=
  construct (matOf T.toTableau) ⟨T.stages, T.bhat⟩ (some (nodesOf T.toTableau)) T.phat
    ("Embedded: " ++ T.name)

end Verif.Tableau
