/-
Model of calls of controllers that refer to configurations by address, and of assignments of another
configuration to the attribute `config`.

Source: /repo/src/rkopenmdao/error_controller.py L100, L143-156, L333, L347-383

Simplifications as in `Verif.Control.Sharing`.
-/
import Verif.Control.Sharing

namespace Verif.Control

open XReal
open Classical

/-- `__call__` of both classes, L143-156 and L347-383, where every controller reads its own attribute
`config`. -/
noncomputable def Obj.call (σ : Store) (top : Bool) : Obj → Input → Obj × Except CErr Status
  | .base par r, i =>
    let st := run par (σ r) i
    (.base par r, if ¬ st.acc ∧ lt i.dt st.sugg ∧ top then .error .outer else .ok st)
  | .deco par w r notInner counter, i =>
    if notInner then
      match w.call σ false i with
      | (w', .ok st) =>
        if st.acc then (.deco par w' r notInner 0, .ok st)
        else if lt st.sugg i.dt ∧ counter + 1 ≤ (σ r).maxIter then
          (.deco par w' r notInner 0, .ok st)
        else
          let q := runDeco top par (σ r) i
          (.deco par w' r q.1 (counter + 1), q.2)
      | (w', .error .outer) =>
        let q := runDeco top par (σ r) i
        (.deco par w' r q.1 counter, q.2)
      | (w', .error .inner) => (.deco par w' r notInner counter, .error .inner)
    else
      let q := runDeco top par (σ r) i
      (.deco par w r q.1 counter, q.2)

/-- `controller.config = configuration`, with the address of the configuration. -/
def Obj.assign (r : ℕ) : Obj → Obj
  | .base par _ => .base par r
  | .deco par w _ ni k => .deco par w r ni k

end Verif.Control
