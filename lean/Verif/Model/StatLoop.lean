import Verif.Model.Grouped

/-!
# The loop over the labels of the batch normalizations

As `groupedLoop`, with buffers (the running statistics) which belong to the labels and are updated in each pass.
-/

namespace Escnn

variable {B P L A : Type} [DecidableEq L]

/-- iid.py L247-304, gnorm.py, inner.py: `F l a d` returns the new buffers of label `l` and the new content of its channels. -/
def statLoop (F : L → A → FTensor B P → Except Err (A × FTensor B P)) (tab : List (L × Bool × List ℕ)) (x : FTensor B P) : (L → A) → FTensor B P → List L → Except Err ((L → A) × FTensor B P)
  | st, out, [] => .ok (st, out)
  | st, out, l :: ls => do
    let i ← tabGet tab l
    let d ← readIdx x i.1 i.2
    let e ← F l (st l) d
    let out ← writeIdx out i.1 i.2 e.2
    statLoop F tab x (Function.update st l e.1) out ls

/-- A loop which updates the buffers only, batchnormalization/norm.py L184-217. -/
def updLoop (F : L → A → FTensor B P → Except Err A) (tab : List (L × Bool × List ℕ)) (x : FTensor B P) : (L → A) → List L → Except Err (L → A)
  | st, [] => .ok st
  | st, l :: ls => do
    let i ← tabGet tab l
    let d ← readIdx x i.1 i.2
    let a ← F l (st l) d
    updLoop F tab x (Function.update st l a) ls

end Escnn
