/-
Model of the option dictionary of the pyrevolve checkpointer.

Source: /repo/src/rkopenmdao/checkpoint_interface/pyrevolve_checkpointer.py L60-105
        /repo/src/rkopenmdao/runge_kutta_integrator.py L429-436 (the dictionary of the user is handed
        over by reference)
-/
import Mathlib.Data.List.Basic
import Mathlib.Logic.Function.Basic
import Mathlib.Data.Int.Notation

namespace Verif.Options

/-- `revolver_type`, pyrevolve_checkpointer.py L120-142. -/
inductive RevType where
  | memory | disk | base | singleLevel | multiLevel
  deriving DecidableEq

/-- The values in the dictionary. `id` is the instance that made a value. -/
inductive Val where
  /-- anything the user gives (numbers, for instance) -/
  | user (x : ℕ)
  /-- the dictionary of storages of the user: type and options -/
  | storages (l : List (String × ℕ))
  /-- the list of storage objects made from it -/
  | storageObjects (id : ℕ) (l : List (String × ℕ))
  | number (x : ℤ)
  | none
  | checkpoint (id : ℕ)
  | fwdOperator (id : ℕ)
  | revOperator (id : ℕ)
  deriving DecidableEq

/-- The options: keys and values in order of insertion. -/
abbrev OptionDict := List (String × Val)

/-- `d.get(key)`. -/
def lookup (d : OptionDict) (k : String) : Option Val :=
  (d.find? (fun e => e.1 = k)).map Prod.snd

/-- `d[key] = value`. -/
def insert (d : OptionDict) (k : String) (v : Val) : OptionDict :=
  if d.any (fun e => e.1 = k) then d.map (fun e => if e.1 = k then (k, v) else e)
  else d ++ [(k, v)]

/-- What can be raised (`.items()` of a list). -/
inductive Err where
  | attribute
  deriving DecidableEq

/-- One turn of the loop, pyrevolve_checkpointer.py L77-88. Storages of unknown type are left out of
the list. -/
def convert (id : ℕ) (ty : RevType) (e : String × Val) : Except Err (String × Val) :=
  if ty = .multiLevel ∧ e.1 = "storage_list" then
    match e.2 with
    | .storages l => .ok (e.1, .storageObjects id (l.filter fun s => s.1 ∈ ["Numpy", "Disk", "Bytes"]))
    | _ => .error .attribute
  else .ok e

/-- The loop, L77-88: the values of the dictionary are replaced one after the other. -/
def convertAll (id : ℕ) (ty : RevType) : OptionDict → Except Err OptionDict
  | [] => .ok []
  | e :: es => match convert id ty e with
    | .error x => .error x
    | .ok e' => match convertAll id ty es with
      | .error x => .error x
      | .ok es' => .ok (e' :: es')

/-- `__post_init__`, pyrevolve_checkpointer.py L60-105, of instance `id` for `N` steps: the content
of the dictionary afterwards. The revolver gets exactly these as arguments (L109). -/
def postInit (id : ℕ) (ty : RevType) (N : ℕ) (d : OptionDict) : Except Err OptionDict :=
  match convertAll id ty d with
  | .error x => .error x
  | .ok d =>
    let d := insert d "checkpoint" (.checkpoint id)
    let d := insert d "n_timesteps" (.number ((N : ℤ) - 1))
    let d := if (lookup d "n_checkpoints").isNone ∧ ty ≠ .multiLevel ∧ ty ≠ .base
      then insert d "n_checkpoints" (if N = 1 then .number 1 else .none) else d
    let d := insert d "fwd_operator" (.fwdOperator id)
    .ok (insert d "rev_operator" (.revOperator id))

/-- The same dictionary used by several instances in a row, each with its own number of steps. -/
def reuse (ty : RevType) : ℕ → List ℕ → OptionDict → Except Err OptionDict
  | _, [], d => .ok d
  | id, N :: Ns, d => match postInit id ty N d with
    | .error x => .error x
    | .ok d' => reuse ty (id + 1) Ns d'

/-! ### Lemmas -/

theorem lookup_insert (d : OptionDict) (k k' : String) (v : Val) :
    lookup (insert d k v) k' = if k' = k then some v else lookup d k' := by
  unfold lookup insert
  split
  · rename_i hany
    induction d with
    | nil => simp at hany
    | cons e d ih =>
      simp only [List.map_cons, List.find?_cons]
      by_cases he : e.1 = k
      · by_cases hk : k' = k
        · subst hk; simp [he]
        · have h1 : ¬ k = k' := fun h => hk h.symm
          simp only [he, ↓reduceIte, h1, decide_false, hk]
          clear hany ih
          induction d with
          | nil => simp
          | cons f d ih =>
            simp only [List.map_cons, List.find?_cons]
            by_cases hf : f.1 = k
            · simp only [hf, ↓reduceIte, h1, decide_false]; exact ih
            · simp only [hf, ↓reduceIte]
              by_cases hf' : f.1 = k'
              · simp [hf']
              · simp only [hf', decide_false]; exact ih
      · simp only [he, ↓reduceIte]
        by_cases he' : e.1 = k'
        · have : ¬ k' = k := fun h => he (he'.trans h)
          simp [he', this]
        · simp only [he', decide_false]
          apply ih
          simpa [he] using hany
  · rename_i hany
    rw [List.find?_append]
    by_cases hk : k' = k
    · subst hk
      have : d.find? (fun e => decide (e.1 = k')) = none := by
        rw [List.find?_eq_none]
        intro x hx hxe
        exact hany (List.any_eq_true.mpr ⟨x, hx, hxe⟩)
      simp [this]
    · have h1 : ¬ k = k' := fun h => hk h.symm
      simp [hk, h1]

theorem convertAll_other (id : ℕ) (ty : RevType) (h : ty ≠ .multiLevel) (d : OptionDict) :
    convertAll id ty d = .ok d := by
  induction d with
  | nil => rfl
  | cons e d ih => simp [convertAll, convert, h, ih]

theorem convertAll_lookup (id : ℕ) (ty : RevType) (d d' : OptionDict) (k : String)
    (hk : k ≠ "storage_list") (h : convertAll id ty d = .ok d') : lookup d' k = lookup d k := by
  induction d generalizing d' with
  | nil => cases h; rfl
  | cons e d ih =>
    simp only [convertAll] at h
    cases hc : convert id ty e with
    | error x => simp [hc] at h
    | ok e' =>
      cases ha : convertAll id ty d with
      | error x => simp [hc, ha] at h
      | ok es' =>
        simp only [hc, ha, Except.ok.injEq] at h
        subst h
        have := ih es' ha
        unfold convert at hc
        split at hc
        · rename_i hcond
          cases hv : e.2 <;> simp [hv] at hc
          subst hc
          have : ¬ "storage_list" = k := fun h => hk h.symm
          simp only [lookup, List.find?_cons, hcond.2, this, decide_false]
          simpa [lookup] using ih es' ha
        · cases hc
          simp only [lookup, List.find?_cons]
          by_cases he : e.1 = k
          · simp [he]
          · simp only [he, decide_false]; exact ih es' ha

/-- The keys the checkpointer writes. -/
def ownKeys : List String :=
  ["checkpoint", "n_timesteps", "n_checkpoints", "fwd_operator", "rev_operator", "storage_list"]

theorem postInit_lookup (id : ℕ) (ty : RevType) (N : ℕ) (d c d' : OptionDict) (k : String)
    (hc : convertAll id ty d = .ok c) (h : postInit id ty N d = .ok d') :
    lookup d' k =
      if k = "rev_operator" then some (.revOperator id)
      else if k = "fwd_operator" then some (.fwdOperator id)
      else if k = "n_checkpoints" ∧ lookup c "n_checkpoints" = none ∧ ty ≠ .multiLevel ∧ ty ≠ .base
        then some (if N = 1 then .number 1 else .none)
      else if k = "n_timesteps" then some (.number ((N : ℤ) - 1))
      else if k = "checkpoint" then some (.checkpoint id)
      else lookup c k := by
  simp only [postInit, hc, Except.ok.injEq] at h
  subst h
  rw [lookup_insert, lookup_insert]
  by_cases h1 : k = "rev_operator"
  · simp [h1]
  by_cases h2 : k = "fwd_operator"
  · simp [h2]
  rw [if_neg h1, if_neg h2, if_neg h1, if_neg h2]
  have hn : lookup (insert (insert c "checkpoint" (.checkpoint id)) "n_timesteps"
      (.number ((N : ℤ) - 1))) "n_checkpoints" = lookup c "n_checkpoints" := by
    rw [lookup_insert, lookup_insert]; simp
  rw [hn]
  by_cases h3 : lookup c "n_checkpoints" = none ∧ ty ≠ .multiLevel ∧ ty ≠ .base
  · have hcond : (lookup c "n_checkpoints").isNone ∧ ty ≠ .multiLevel ∧ ty ≠ .base :=
      ⟨by simp [h3.1], h3.2⟩
    rw [if_pos hcond, lookup_insert]
    by_cases h4 : k = "n_checkpoints"
    · have h5 := And.intro h4 h3
      rw [if_pos h4, if_pos h5]
    · rw [if_neg h4, if_neg (fun h => h4 h.1), lookup_insert, lookup_insert]
  · have hcond : ¬ ((lookup c "n_checkpoints").isNone ∧ ty ≠ .multiLevel ∧ ty ≠ .base) := by
      simpa [Option.isNone_iff_eq_none] using h3
    rw [if_neg hcond, if_neg (fun h => h3 h.2), lookup_insert, lookup_insert]

end Verif.Options
