import Verif.Model.Pointwise
import Verif.Model.Grouped
import Mathlib.Analysis.Real.Sqrt

/-!
# Model of escnn/nn/modules/nonlinearities: fourier.py, fourier_quotient.py

Also `spectral_regular_representation` and `spectral_quotient_representation` (group.py L613-655) with the constructor of the induced
representation in the spectral basis (homspace.py L319-391).  The representations are cached by a name which lists the irreps; the
cache is left out.  The order of a Python set is an argument.
-/

namespace Escnn

open NpMat

variable {G Id S B P C : Type}

noncomputable section

/-- `dimension_basis(rho, psi)[1]`, homspace.py L245-277, for `psi` the trivial irrep of the subgroup: `mult i` is its multiplicity in
the restriction of the irrep `i`, `ssc i` is `sum_of_squares_constituents`.  The assertion of L273 asks for an integer. -/
def dimensionBasis (mult ssc : Id → ℕ) (i : Id) : Except Err ℕ :=
  if ssc i ∣ mult i then .ok (mult i / ssc i) else .error .assertion

/-- The loop `irreps_ids += [irr] * multiplicity`, homspace.py L369-375. -/
def spectralIds (mult ssc : Id → ℕ) : List Id → Except Err (List Id)
  | [] => .ok []
  | i :: is => do
    let m ← dimensionBasis mult ssc i
    let rest ← spectralIds mult ssc is
    .ok (List.replicate m i ++ rest)

open Classical in
/-- `HomSpace.induced_representation(trivial, irreps, name)`, homspace.py L341-391, as called by `spectral_quotient_representation`,
group.py L651-653.  For the size 0 it returns `None`, which the constructor of `FieldType` rejects. -/
def spectralRep (T : IrrepTable G Id) (mult ssc : Id → ℕ) (name : String) (irreps : List Id) : Except Err (Rep G Id) :=
  if irreps = [] then .error .assertion
  else if ¬ irreps.all T.ok then .error .assertion
  else if ¬ irreps.Nodup then .error .assertion
  else do
    let ids ← spectralIds mult ssc irreps
    if irrepsSize T ids = 0 then .error .assertion
    else mkRep T [] name ids (eye (irrepsSize T ids)) {"norm", "gated", "concatenated"} none

/-- `k.T.reshape(-1)`, fourier.py L27, fourier_quotient.py L28: the columns of `k` one after the other. -/
def flatCols (k : NpMat ℝ) : List ℝ := (List.range k.cols).flatMap fun a => (List.range k.rows).map fun i => k.get i a

/-- The array `irr(G.identity)[:, :c] * np.sqrt(irr.size)` of the irrep `i`, fourier.py L23-26. -/
def regularKernel (T : IrrepTable G Id) (ssc : Id → ℕ) (one : G) (i : Id) : NpMat ℝ :=
  ⟨(T.mat i one).rows, min (T.size i / ssc i) (T.mat i one).cols, fun a b => (T.mat i one).get a b * Real.sqrt (T.size i)⟩

/-- `_build_kernel`, fourier.py L19-30 and fourier_quotient.py L19-31: the arrays of the irreps, flattened and concatenated. -/
def buildKernel (k : Id → NpMat ℝ) (irreps : List Id) : List ℝ := irreps.flatMap fun i => flatCols (k i)

/-- `kernel / np.linalg.norm(kernel)` if `normalize`, fourier.py L129-130. A kernel of norm zero gives NaN in NumPy and zero here. -/
def normalizeKernel (normalize : Bool) (k : List ℝ) : List ℝ :=
  if normalize then k.map fun a => a / Real.sqrt ((k.map fun b => b ^ 2).sum) else k

/-- `np.concatenate([rho(g) @ kernel for g in grid], axis=1).T`, fourier.py L131-140: the row `i` is `rho(grid[i]) @ kernel`. -/
def samplingMatrix (rho : Rep G Id) (kernel : List ℝ) (grid : List G) : NpMat ℝ :=
  ⟨grid.length, rho.size, fun i f => match grid[i]? with
    | some g => ∑ j ∈ Finset.range (rho.mat g).cols, (rho.mat g).get f j * kernel.getD j 0
    | none => 0⟩

/-- `A.T @ A + eps * np.eye(size)` with `eps = 1e-8`, fourier.py L164-165. -/
def normalMatrix (A : NpMat ℝ) (size : ℕ) : NpMat ℝ :=
  ⟨A.cols, A.cols, fun i j => (mul (transpose A) A).get i j + 1 / 100000000 * (eye size : NpMat ℝ).get i j⟩

/-- The attributes of `FourierPointwise` and `QuotientFourierPointwise` read by `forward`. -/
structure Fourier (S G Id : Type) where
  inType : FType S (Rep G Id)
  outType : FType S (Rep G Id)
  rho : Rep G Id
  rhoOut : Rep G Id
  function : ℝ → ℝ
  A : NpMat ℝ
  Ainv : NpMat ℝ

namespace Fourier

/-- The choice of the function, fourier.py L115-124, fourier_quotient.py L136-145.  `inplace` only changes where the result is stored. -/
def chooseFunction (function : String) : Except Err (ℝ → ℝ) :=
  if function = "p_relu" then .ok torchRelu
  else if function = "p_elu" then .ok (torchElu 1)
  else if function = "p_sigmoid" then .ok torchSigmoid
  else if function = "p_tanh" then .ok Real.tanh
  else .error .value

open Classical in
/-- Both constructors, fourier.py L94-171 and fourier_quotient.py L115-194; `rep` is the call of `spectral_…_representation`, `kern` is
`_build_kernel`, `order` is the order of `list(set(irreps).difference(set(out_irreps)))` (fourier.py L144). -/
def init (rep : List Id → Except Err (Rep G Id)) (kern : List Id → List ℝ) (order : List Id → List Id) (space : S) (channels : ℕ)
    (irreps : List Id) (grid : List G) (function : String) (outIrreps : Option (List Id)) (normalize : Bool) : Except Err (Fourier S G Id) := do
  let rho ← rep irreps
  let inType ← FType.mk' space (List.replicate channels rho)
  let rhoOut ← match outIrreps with
    | none => .ok rho
    | some out => rep out
  let outType ← FType.mk' space (List.replicate channels rhoOut)
  let f ← chooseFunction function
  if (kern irreps).length = rho.size then
    if grid = [] then .error .value
    else match outIrreps with
      | none => do
        let A := samplingMatrix rho (normalizeKernel normalize (kern irreps)) grid
        let N ← npInv (normalMatrix A rhoOut.size)
        .ok ⟨inType, outType, rho, rhoOut, f, A, mul N (transpose A)⟩
      | some out => do
        let A := samplingMatrix rho (normalizeKernel normalize (kern irreps)) grid
        let missing := order (irreps.dedup.filter fun i => i ∉ out)
        let ext ← rep (out ++ missing)
        if (kern (out ++ missing)).length = ext.size then do
          let Aout := samplingMatrix ext (normalizeKernel normalize (kern (out ++ missing))) grid
          let N ← npInv (normalMatrix Aout ext.size)
          let Ainv := mul N (transpose Aout)
          .ok ⟨inType, outType, rho, rhoOut, f, A, ⟨min rhoOut.size Ainv.rows, Ainv.cols, Ainv.get⟩⟩
        else .error .assertion
  else .error .assertion

open Classical in
/-- `forward`, fourier.py L173-199, fourier_quotient.py L196-222.  The last `reshape` raises `RuntimeError` for a wrong number of entries. -/
def forward (m : Fourier S G Id) (x : GTensor B P S (Rep G Id) C) : Except Err (GTensor B P S (Rep G Id) C) :=
  if x.type = m.inType then do
    let xhat ← x.tensor.toFields m.inType.len m.rho.size
    let y : FieldsT B P := ⟨xhat.n, m.A.rows, fun b c g p => m.function (∑ f ∈ Finset.range xhat.size, xhat.get b c f p * m.A.get g f)⟩
    let yhat : FieldsT B P := ⟨y.n, m.Ainv.rows, fun b c f p => ∑ g ∈ Finset.range y.size, y.get b c g p * m.Ainv.get f g⟩
    if yhat.n * yhat.size = m.outType.size Rep.size then GTensor.mk' Rep.size yhat.flat m.outType x.coords else .error .runtime
  else .error .assertion

/-- `FourierPointwise.__init__`, fourier.py L35-171.  The restriction of an irrep to the trivial subgroup is the sum of `size` trivial
irreps. -/
def initRegular (T : IrrepTable G Id) (ssc : Id → ℕ) (one : G) (nameOf : List Id → String) (order : List Id → List Id) (space : S) (channels : ℕ)
    (irreps : List Id) (grid : List G) (function : String) (outIrreps : Option (List Id)) (normalize : Bool) : Except Err (Fourier S G Id) :=
  init (fun L => spectralRep T T.size ssc (nameOf L) L) (buildKernel (regularKernel T ssc one)) order space channels irreps grid function outIrreps normalize

/-- `QuotientFourierPointwise.__init__`, fourier_quotient.py L36-194; `mult i` is the multiplicity of the trivial irrep of the subgroup in
the irrep `i`, `dirac i` is `X._dirac_kernel_ft(i, trivial)[:, :, 0]` (homspace.py L161-243). -/
def initQuotient (T : IrrepTable G Id) (mult ssc : Id → ℕ) (dirac : Id → NpMat ℝ) (nameOf : List Id → String) (order : List Id → List Id) (space : S)
    (channels : ℕ) (irreps : List Id) (grid : List G) (function : String) (outIrreps : Option (List Id)) (normalize : Bool) :
    Except Err (Fourier S G Id) :=
  init (fun L => spectralRep T mult ssc (nameOf L) L) (buildKernel dirac) order space channels irreps grid function outIrreps normalize

end Fourier

end

end Escnn
