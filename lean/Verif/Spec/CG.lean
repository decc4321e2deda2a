import Verif.Model.CG

/-!
# What Clebsch–Gordan coefficients must satisfy (specification)
-/

namespace Escnn

/-- `(A ⊗ B) CG = CG C` for every copy `s`: `Σ A[a,a'] B[b,b'] CG[a',b',s,c] = Σ CG[a,b,s,c'] C[c',c]`. -/
def Intertwines (A B C : NpMat ℝ) (cg : CGArray) : Prop :=
  ∀ a b s c, a < A.rows → b < B.rows → s < cg.mult → c < C.rows →
    ∑ a' ∈ Finset.range A.cols, ∑ b' ∈ Finset.range B.cols, A.get a a' * B.get b b' * cg.get a' b' s c =
    ∑ c' ∈ Finset.range C.rows, cg.get a b s c' * C.get c' c

/-- Inner product of the columns `(s, c)` of two arrays. -/
noncomputable def cgInner (sm sn : ℕ) (x y : CGArray) (s c s' c' : ℕ) : ℝ :=
  ∑ a ∈ Finset.range sm, ∑ b ∈ Finset.range sn, x.get a b s c * y.get a b s' c'

/-- The columns of all the arrays `cg j`, `(j, mult) ∈ L`, together form an orthonormal family. -/
def OrthonormalCG {J : Type} [DecidableEq J] (sm sn : ℕ) (size : J → ℕ) (cg : J → CGArray) (L : List (J × ℕ)) : Prop :=
  ∀ p ∈ L, ∀ q ∈ L, ∀ s c s' c', s < p.2 → c < size p.1 → s' < q.2 → c' < size q.1 →
    cgInner sm sn (cg p.1) (cg q.1) s c s' c' = if (p.1, s, c) = (q.1, s', c') then 1 else 0

/-- The coefficients of two irreps: every irrep listed once, with its multiplicity; the sizes add up to that of the tensor product; every array intertwines, and together the columns are orthonormal. -/
structure CGLaw {G J : Type} [DecidableEq J] (El : G → Prop) (ok : J → Bool) (size : J → ℕ) (mat : J → G → NpMat ℝ) (tens : J → J → List (J × ℕ)) (cg : J → J → J → CGArray) (m n : J) : Prop where
  nodup : ((tens m n).map Prod.fst).Nodup
  ok : ∀ e ∈ tens m n, ok e.1 = true
  mult : ∀ e ∈ tens m n, (cg m n e.1).mult = e.2
  dim : ((tens m n).map fun e => size e.1 * e.2).sum = size m * size n
  intertwines : ∀ e ∈ tens m n, ∀ g, El g → Intertwines (mat m g) (mat n g) (mat e.1 g) (cg m n e.1)
  ortho : OrthonormalCG (size m) (size n) size (cg m n) (tens m n)

end Escnn
