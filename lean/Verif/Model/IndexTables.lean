import Verif.Model.GTensor

/-!
# Model of `escnn/nn/modules/utils.py`
-/

namespace Escnn

/-- The loop of `check_consecutive_numbers`, utils.py L15-19: minimum, maximum and sum.  Channel indices are natural numbers, so the
assertion `l >= 0` is typing. -/
def consecLoop : ℕ → ℕ → ℕ → List ℕ → ℕ × ℕ × ℕ
  | m, M, s, [] => (m, M, s)
  | m, M, s, l :: L => consecLoop (min m l) (max M l) (s + l) L

/-- `check_consecutive_numbers`, utils.py L10-23.  The two quotients of even numbers by `2` are computed in floating point by the
code, and exactly here; an empty list raises `IndexError` (L12). -/
def checkConsecutive : List ℕ → Except Err Bool
  | [] => .error .index
  | a :: L =>
    let r := consecLoop a a 0 (a :: L)
    .ok (decide (((r.2.1 : ℤ) * (r.2.1 + 1)) / 2 - (((r.1 : ℤ) - 1) * r.1) / 2 = r.2.2))

/-- `indeces[l]`, utils.py L43-48: the channels appended for label `l`, from position `p` on. -/
def labelChans {L R : Type} [DecidableEq L] (sz : R → ℕ) (l : L) : ℕ → List L → List R → List ℕ
  | p, x :: xs, r :: rs =>
    if x = l then List.range' p (sz r) ++ labelChans sz l (p + sz r) xs rs else labelChans sz l (p + sz r) xs rs
  | _, _, _ => []

/-- `indexes_from_labels`, utils.py L26-56: the dictionary as its list of assignments. -/
def indexesFromLabels {L S R : Type} [DecidableEq L] (sz : R → ℕ) (t : FType S R) (labels : List L) :
    Except Err (List (L × Bool × List ℕ × List ℕ)) :=
  if labels.length ≠ t.len then .error .assertion
  else mapE (fun l => do
    let c ← checkConsecutive (labelChans sz l 0 labels t.reprs)
    .ok (l, c, FType.labelLoop l 0 labels, labelChans sz l 0 labels t.reprs)) labels

end Escnn
