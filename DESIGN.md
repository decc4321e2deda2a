# DESIGN

Formal model (Lean 4 + Mathlib) of the `escnn` library at the pinned commit in /repo.

## Method

* The Lean definitions in `lean/Verif/Model/` mirror Python functions one by one.  Every definition cites the
  Python file and lines and states its simplifications.
* Property theorems live in `lean/Verif/Props/`, one file per property group.  They are stated with Mathlib notions or
  with the specifications in `lean/Verif/Spec/`, which do not mention the definitions of the model.
* `lean/Verif/Lemmas/` contains auxiliary facts only.
* Exceptions (`assert`, `raise`, errors of PyTorch and NumPy) are values of `Except Err`, so error branches are part of the
  statements.
* Where the code violates a property, a `..._violated` (or `..._violation`) theorem gives a concrete witness, and the provable
  part keeps the suffix `_partial` or states exactly the cases in which it holds.
* Beside the theorems, `example`s instantiate their hypotheses with concrete non-trivial data.
* The theorems are tested by wrong programs: an edit of a definition in a scratch copy must make a theorem fail.
  `seeded/LOG.jsonl` records the edits, the theorems which failed and the theorems which were tightened.

## Trusted base

* The Lean 4.33.0 kernel and the axioms `propext`, `Classical.choice`, `Quot.sound` (list per theorem below).  No own axioms,
  `sorry`, `native_decide` or `bv_decide`.
* The correspondence between the Lean definitions and Python, done by reading.
* The specifications in `lean/Verif/Spec/` and the statements of the theorems.

### Representation of Python values

* `int` is `ℤ` (or `ℕ` where the code only produces non-negative values) with Python's `%` and `//` as `Int.emod`/`Int.ediv`
  (equal for positive divisors).
* `float` and tensors of floats are exact real numbers.  Rounding, overflow, NaN and infinities are not modelled; `-inf` as
  padding of a maximum is an arbitrary argument.  Angles are reals with `mod2pi`.
* `np.isclose`, `np.allclose` and `math.isclose` are exact equalities, except: `cycle_isclose` (SO(2), O(2), `_change_param`),
  equality of quaternions (C64), and the thresholds of the basis expansion and of the circular harmonics keep their tolerances.
* A 2-D array is `NpMat` (numbers of rows and columns, entries) with equality of the entries inside the bounds; feature maps
  are `FTensor`, `FMap`, `NdArr`.  Memory layout, views, strides, devices and dtypes are not modelled, except in C27
  (in-place operations on shared storages) and C58 (in-place writes to a copy made by advanced indexing).
* `torch.empty` returns arbitrary entries: theorems quantify over them.
* Sets have an arbitrary iteration order: theorems quantify over the lists which enumerate them.
* Dictionaries are lists of assignments where the last assignment wins, in the order of first insertion.
* Random numbers are arguments of the functions.
* `EmptyBasisException` is `Err.emptyBasis`.

### Contracts of external functions

* `torch.nn.functional` convolutions, transposed convolutions, poolings, batch normalisation, `einsum`, `conv_transpose`,
  `max_pool` with indices and `adaptive_*_pool` are modelled by their documented formulas, including the errors for wrong shapes.
* SciPy's `connected_components` (C19) and `linalg.inv` (change of basis, `npInv`) enter through contracts: labels of the
  connected components; an inverse whenever one exists, an error otherwise.
* Before C83 and C84 the numerical solver for Clebsch-Gordan coefficients of general groups and `decompose_representation_finitegroup`
  enter through contracts stated as hypotheses (intertwining; shape).  C83 and C84 model both and prove the contracts; what they
  leave is a contract for the SVD, the inverse and the optimiser.  For SO(2) and C_N the closed formulas of the code are modelled.
* PyTorch module containers are modelled as far as names and order of submodules matter (C30, C34, C62).

### Not modelled

* Autograd, devices, dtypes, memory formats, joblib disk caches, printing, documentation helpers.
* The Icosahedral group (only equality and hashes of its elements, C64; inside SO(3) and O(3) it is a contract: a finite list of
  rotations closed under composition, C75, C76; C85 proves this contract for the Octahedral group). Wigner D matrices and
  spherical harmonics are a contract.
* `scipy.spatial.transform.Rotation`: a contract (`as_quat` returns one of the two unit quaternions of the rotation,
  C75, C76).
* The SVD itself (a contract), the parts of `HomSpace` not listed under Modelled code, `DoubleGroup`.
* Interpolation of feature maps by elements which do not preserve the grid (an arbitrary function).
* Point convolutions' graph message passing, apart from the basis sampler (C62).

## Violations found in the code

One theorem for each, with a concrete witness or for all inputs of the stated kind.

* `C04_right_nested_violated`: a direct product whose second factor is a product is misparsed.
* `C04_subgroup_violated`: restriction to a product subgroup uses the second child map twice.
* `C06_violated`: dihedral subgroups with axis >= N/M are accepted, their maps raise.
* `C07_o2_dn_violated`: O(2) subgroups D_M with axis >= 2π/M: the child map drops every reflection.
* `C07_so2_child_raises`: the child map of SO(2) raises on angles just below 2π.
* `C08_o2_self_violated`: composing O(2) subgroup ids yields an axis above 2π, which is rejected.
* `C14_constructor_size_violated`: the size of an identity change of basis of a single irrep is not checked.
* `C21_cyclic_violated`: `MAT` parameters of C_N are converted with a zero sine.
* `C21_dihedral_violated`: the same for D_N.
* `C22_representatives_violated`: caches ignore the coset representatives.
* `C22_names_violated`: the kernel basis cache is keyed by names of representations.
* `C24_restrict_violated`: `FieldType.restrict` is keyed by names.
* `C26_split_default_violated`: `split(None)` raises.
* `C26_split_mutates_violated`: `split` changes the list of the caller.
* `C26_getitem_violated`: an index below -len returns another field.
* `C26_slice_clamp_violated`: slice bounds out of range raise.
* `C28_reshuffle_repeated`: `ReshuffleModule` accepts lists with repetitions.
* `C28_merge_tuple_first`: `MergeModule` fails if its first submodule has several inputs.
* `C29_repeated_violated`: `check_consecutive_numbers` is wrong on lists with repetitions.
* `C30_append_violated`: `append` to a slice overwrites a module.
* `C31_disentangle_violated`: `DisentangleModule` is keyed by names.
* `C33_violated_names`: weight info: escaped names collide.
* `C34_violated_names`: filters: escaped names collide.
* `C34_violated_empty`: one pair of representations with an empty basis raises.
* `C40_violated_getitem_circular`: `CircularShellsBasis.__getitem__` always fails.
* `C40_violated_steerable_attrs`: `steerable_attrs` without filter always raises.
* `C40_violated_filter`: `steerable_attrs_j_iter` with a filter yields wrong items.
* `C40_violated_radial`: `SphericalShellsBasis.steerable_attrs` lacks the radial attributes.
* `C42_violated_empty`: `Linear` without intertwiners raises IndexError.
* `C45_violated_update`: stale filter after a weight update in evaluation mode.
* `C45_violated_eval_again`: also after another `eval()`.
* `C45_violated_load`: loading a state dictionary with the filter of the constructor.
* `C46_circular_violated`: export drops `padding_mode`.
* `C46_output_padding_violated`: export drops `output_padding`.
* `C46_ceil_violated`: export drops `ceil_mode`.
* `C46_inner_dim0_violated`: `InnerBatchNorm` without spatial axes.
* `C46_gnorm_dims_violated`: `GNormBatchNorm` exports `BatchNorm3d`.
* `conv_tuple_violation`: `evaluate_output_shape` with a tuple as padding.
* `ceil_violation`: `ceil_mode`: the last window.
* `antialiased_violation`: antialiased max pooling pads twice.
* `normmax_violation`: `NormMaxPool` ignores `ceil_mode`.
* `C51_gated_subgroups_violated`: gates of another subgroup of the same index are accepted.
* `C53_incomplete_grid`: (documented limitation) `FourierPointwise` on an incomplete grid.
* `C54_two_violated`: vector fields of C_2 with several fields raise.
* `C54_ties_violated`: ties break equivariance.
* `C55_norm_not_orthogonal_violated`: `NormPool` accepts non-orthogonal representations.
* `C56_iid_not_orthogonal_violated`: `IIDBatchNorm` likewise.
* `C56_norm_not_orthogonal_violated`: `NormBatchNorm` likewise.
* `C57_not_orthogonal_violated`: `FieldNorm` likewise.
* `C56_gnorm_axes_violated`: `GNormBatchNorm` needs two spatial axes.
* `C56_inner_dim0_violated`: `InnerBatchNorm` needs a spatial axis.
* `C58_inplace_violated`: in-place `FieldDropout` does nothing on fields which are not contiguous.
* `C61_quaternionic_violation`: H⊗H has a wrong type and size.
* `C61_real_quaternionic`: R⊗H is declared of type H, but its `endomorphism_basis` does not commute with it when the first factor has more than one dimension.
* `C62_groups_violation`: `BlocksBasisSampler` with several groups.
* `C62_dot_violation`: names with dots raise KeyError.
* `C63_fields_violation`: variances of `generalized_he_init` differ inside a pair of fields.
* `C64_so2_symm_violated`: equality in SO(2) is not symmetric.
* `C64_so2_hash_violated`: equal elements of SO(2) with different hashes.
* `C64_nested_id_violated`: ids of nested products do not round-trip.
* `C64_empty_id_violated`: ids with empty tuples.
* `C64_irrep_name_violated`: `get_irrep_id(str)` returns a representation.
* `C66_axis_violated`: `_stored_filters` returns the filters of another reflection axis, because `CircularShellsBasis.__eq__` ignores `axis`; the layer is not equivariant.
* `TensorRep.C67_norm_violated`: `Representation.tensor` always declares `norm`, also when a factor (which does not support it) is not orthogonal.
* `Upsampling.C71_nearest_violated`: `mode="nearest"` does not commute with the half turn when the size of the input does not divide that of the output.
* `Upsampling.C71_align_violated`: `align_corners=True` and `size=1` return the first pixel, which does not commute with the half turn.
* `PointwisePool.C72_stride_violated`: pooling an image of 3 × 3 pixels by windows of 2 × 2 pixels with the default stride does not commute with the half turn.
* `RdConvT.C73_output_padding_violated`: `output_padding`, documented as padding on both sides, adds pixels at one end of each axis; with it a transposed convolution does not commute with the half turn.
* `PointConv.C74_no_edges_violated`: a point convolution called with no edge raises `AssertionError`, although a set of points without neighbours is a legal graph.
* `PointConv.C74_shape_violated`: `evaluate_output_shape` of the point convolutions asserts three dimensions, while the features have two.
* `O3.C76_cone_axis_violated`: the id `('cone', a, n)` of O(3) denotes the cone with its reflection at the angle `-a`, not at the documented `a`.
* `SO3.C77_ico_violated`, `SO3.C77_octa_violated`: the subgroups of a conjugated Icosahedral group with rotations of order 3 or 5, are combined to a wrong group; the subgroups of the Octahedral group are not implemented.
* `O3.C77_cone_violated`, `O3.C77_cone_rotations_violated`, `O3.C77_mirror_violated`: the subgroups of a cone in O(3): at the axis `a` the reflections are wrong unless `3 a` is a full turn, rotations fail, the trivial subgroup of a mirror group is the mirror group.
* `O3.C77_rotations_violated`: restricting a group of rotations (other than SO(3)) inside O(3), for example the gspaces `rot2dOnR3`, `dihedralOnR3`, `icoOnR3`, always fails.
* `O3.C77_cylinder_violated`, `O3.C77_inversion_violated`: for the products with the inversion the order of a subgroup of C_2 is used as a truth value: the trivial subgroup keeps the inversion, the whole C_2 fails.
* `GSpace3D.C78_axis_violated`: `mirOnR3` and `conicalOnR3` have their reflection at `-axis`.
* `C81_maximum_frequency_violated`: `GSpace3D._basis_generator` never reaches `kernels_O3_act_R3` or `kernels_SO3_act_R3`, because the id it compares with always carries an adjoint element; and without its optional `maximum_frequency` it always raises `TypeError`, because the groups cannot be built with `None`.
* `Sparse.C82_change_of_basis_violated`: `SparseOrbitBasis(..., change_of_basis=C)` moves the points of the orbit but keeps `self.action`, so that the basis is not steerable under its own action unless C commutes with it.
* `C83_trivial_group_violated`: `build_from_discrete_group_representation` raises `AssertionError` for every representation of the trivial group, because its list of generators is empty.
* `Octa.C85_child_violation`: `octa_to_cn` (octa.py L560-595) compares the axis of the quaternion with the axis of the subgroup but not with its opposite: the element 15 of the group's own list, which lies in the subgroup `(False, 4)`, gives `None`.
* `Octa.C85_edges_violation`: `cube_edges_representation` (octa.py L394-399) is the quotient by a half turn around a coordinate axis, which fixes no edge; it is not the action on the 12 edges.
* `Octa.C85_restrict_trivial_violation`: the restriction of an irrep to the trivial subgroup (octa.py L305-307) names the irrep `(1,)` of `C_1`, which does not exist.
* `BasisParams.C86_dilation_violation`: the cut-off policy of the 2-dimensional convolutions gets `kernel_size // 2` but radii multiplied by the dilation (r2convolution.py L443-448): with dilation 2 the outermost ring of a kernel of size 5 gets frequency 7 instead of 2.
* `BasisParams.C86_dilation3_violation`: the same in three dimensions (r3convolution.py L436-441) makes the cut-off negative, so that the outermost ring of a kernel of size 5 with dilation 4 carries no filter.
* `Sphere.C87_so3_sphere_violation`: `SO3.sphere_grid` (so3group.py L259-262) multiplies the third column, which holds the point, by the determinant, which is always -1; the representatives send the pole to the antipodes of the points of the grid. `find_rotation_pole2point` multiplies the first column and is right.
* `Sphere.C87_fibonacci_violation`: `_fibonacci_sphere_samples(1)` (so3_utils.py L385) divides 0 by 0, so that the only point is NaN.
* `Ico.C90_child_violation`: the map from the icosahedral group to a cyclic subgroup gives `None` for elements of the subgroup stored by the opposite quaternion, for example for the inverse of the image of the generator of `(False, 5)`.

## Results per property

`proved`: the theorems listed in MANIFEST.json cover the whole statement.  `partial`: see the note; the full statement is in properties.jsonl.

* **C01** (proved) Cyclic group elements form a group and are enumerated exactly once. all N
* **C02** (proved) Dihedral group elements form a group and are enumerated exactly once. all N
* **C03** (proved) SO(2) and O(2) composition and inversion satisfy the group laws. exact-real angles
* **C04** (partial) Direct products are groups acting componentwise. Group laws, inclusions, projections and enumeration hold for every product whose parametrisation name is split correctly; a product whose second factor is a product is broken (C04_right_nested_violated), and the restriction map of product subgroups uses child2 twice (C04_subgroup_violated).; Subgroups of one factor are correct (C04_left, C04_right, C04_sides).
* **C05** (proved) Cyclic subgroups: inclusion and restriction are mutually inverse homomorphisms. all N, M
* **C06** (partial) Dihedral subgroups: inclusion and restriction are mutually inverse homomorphisms. code accepts axis >= N/M, where the maps raise; exact characterisation of when the property holds, and a witness of the violation
* **C07** (partial) O(2)/SO(2) subgroup maps are mutually inverse homomorphisms. holds for every family except D_M with axis >= 2pi/M, where the child map drops every reflection (exact characterisation and witness proved); child map of SO(2) raises on angles just below 2pi
* **C08** (partial) Composing subgroup ids composes inclusions. O(2)->O(2)->: the combined axis can exceed 2pi and is then rejected; witness proved
* **C09** (proved) Cyclic irreps are orthogonal homomorphisms with the advertised character, type and total dimension. all N, k
* **C10** (proved) Dihedral irreps are orthogonal homomorphisms with the advertised character and total dimension. all N, j, k
* **C11** (proved) SO(2) and O(2) irreps are orthogonal homomorphisms with the advertised character. all frequencies
* **C12** (proved) Restricting an irrep of C_N, D_N, SO(2), O(2) gives a correct change of basis and irrep list. C_N, D_N, SO(2), O(2); all irreps, all accepted subgroup ids
* **C13** (proved) Restricting a representation is composition with the inclusion. 
* **C14** (partial) Direct sums and basis changes of representations are representations. The constructor does not check the size of an identity change of basis for a single irrep (C14_constructor_size_violated); everything else is proved.
* **C15** (proved) Clebsch-Gordan coefficients of SO(2) and C_N intertwine the tensor product with its summands. 
* **C16** (proved) The regular representation permutes group elements and its change of basis block-diagonalises it. C16_regular_sound: for every finite group with orthogonal irreps, whenever regular_representation returns, it is left multiplication (permutation matrix), a homomorphism, with the regular character. Success is proved for C_N and D_N of every order; for other groups success is conditional on RegularData (C16_regular_partial).
* **C17** (proved) Quotient and induced representations act on cosets. Soundness: whenever the construction returns, the matrices are those of the induced representation for the given representatives, for any group/subgroup/irrep; finite groups need no completeness hypothesis. Induction from reducible representations is rejected by the code. That the asserted orthogonality always holds (Frobenius reciprocity, completeness of the irreps) is not proved.
* **C18** (proved) Endomorphism bases commute with their irrep and are orthogonal. Count, shape and orthogonality for all types and sizes; commutation for all irreps of C_N, D_N, SO(2), O(2); homomorphism_space / Representation.endomorphism_basis intertwine, have the right dimension and are linearly independent for every group whose irreps' endomorphism bases commute.
* **C19** (proved) disentangle returns an equivalent block-diagonal representation. connected_components of SciPy enters through its contract (IsComponents).
* **C20** (proved) Irrep matrices generated from generators agree with the group law. Set iteration order is arbitrary; termination within order+1 rounds is part of the statement.
* **C21** (partial) Parametrisation changes round-trip. int and radians round-trip for C_N, D_N; SO(2), O(2) fully; the MAT parametrisation of C_N, D_N is wrong (sine computed as A[1,0]-A[1,0]), exact set of surviving elements proved
* **C22** (partial) Cached objects do not depend on call history. subgroup and restrict caches proved; quotient/induced with default arguments proved for C_N; violated for explicit representatives and for representations sharing a name
* **C23** (proved) Field type bookkeeping is consistent. All field types: field offsets tile the channels, irreps concatenate, + concatenates, index_select picks the listed fields.
* **C24** (partial) FieldType.sorted, group_by_labels and restrict preserve the fields. Sorting and grouping hold for all inputs. restrict needs distinct representations to have distinct names: the code keys its dictionary by name, and C24_restrict_violated exhibits the failure otherwise.
* **C25** (proved) transform_fibers and representation of a field type is the block-diagonal action. transform_fibers of any field type of well-formed representations.
* **C26** (partial) split then tensor_directsum is the identity and slicing selects exactly the requested fields. split/directsum for every list of breaks; directsum rejects tensors with another gspace or other coordinates; indexing sound for every int >= -len, slice, mask, index tensor. Violations exhibited: breaks=None always raises, split mutates the caller's list, int < -len returns another field, out-of-range slice bounds raise.
* **C27** (proved) Arithmetic on geometric tensors is equivariant and type-checked. In-place operations are modelled on a memory of storages, so aliasing operands are covered. Integer scalars raise TypeError.
* **C28** (proved) Reshuffle, branching and merging route whole fields and commute with the action. Submodules enter through the contract Sound/Equivariant; spatial resampling is channelwise and commutes with selections (IsSelection.mapP). Also shown: lists with repetitions are accepted as permutations; MergeModule fails when its first submodule has several inputs.
* **C29** (proved) Channel index tables address exactly the labelled channels, and contiguity detection is sound. indexes_from_labels with check_consecutive_numbers; the contiguity flag is correct on the strictly increasing index lists it is called with; on lists with repetitions check_consecutive_numbers itself is wrong (witness).
* **C30** (partial) SequentialModule composes equivariant maps and keeps module order across histories. Everything is proved except that append extends the list for every object: append uses the name str(len), which slices may already contain; the counterexample s[1:].append(d) is proved.
* **C31** (partial) Restriction and Disentangle modules preserve data and commute with the subgroup action. Proved when different representations of the input type have different names. With a shared name the disentangle module applies one change of basis to both fields: C31_disentangle_violated.
* **C32** (proved) Basis-expansion weights are partitioned exactly among representation pairs. all bases, filters, types and names; the blocks of weights are in the order of the pairs of names, whatever the order in which Python iterates over the sets
* **C33** (partial) get_element_info(id) and get_basis_info() agree and invert the weight layout. proved for SingleBlockBasisExpansion, for BlocksBasisExpansion with distinct escaped names and for BlocksBasisSampler with distinct names; violated if two names differ only by '.' against '^' (theorem); a sampler rejects names with a dot (C62_dot_violation)
* **C34** (partial) Basis expansion writes every (output channel, input channel) block exactly once and yields an equivariant filter. proved with distinct escaped names, and a non-empty basis if there is one representation on both sides; both conditions are needed (theorems)
* **C35** (proved) Wigner-Eckart kernels satisfy the steerability constraint. for every group with orthogonal irreps, commuting endomorphisms and intertwining Clebsch-Gordan coefficients; these hypotheses are discharged for SO(2) and the cyclic groups; the number of solutions is also proved
* **C36** (proved) Restricted Wigner-Eckart kernels satisfy the subgroup constraint. as C35, for subgroups with well-formed restrictions (C13); all hypotheses but the steerability of the filters are discharged for SO(2) -> C_N
* **C37** (proved) Kernel-basis attribute indices decode uniquely and iterators agree with random access. Wigner-Eckart, restricted Wigner-Eckart, steerable, union, sparse and point bases; the shells bases are C40.
* **C38** (proved) SteerableKernelBasis between arbitrary representations is steerable. For any field types, with the solver modelled as code; also end to end for SO(2) and C_N and for restricted bases.
* **C39** (proved) Circular harmonics are steerable under O(2). The circular harmonics transform with the O(2) irreps under the declared action for every axis, radius and frequency; the whole basis with the Gaussian radial part is steerable.
* **C40** (partial) Polar basis index layout is consistent. Layout and iteration proved with and without filters; __getitem__ of the circular basis and the steerable attribute lookups violate the claim, with witnesses.
* **C41** (proved) Equivariant bias vectors are exactly invariant. The expanded bias is fixed by every representation of the output type for all weights, and every invariant vector is the bias of exactly one weight vector; the absence of other invariant irreps is proved for SO(2), O(2), C_N and D_N.
* **C42** (partial) Linear layers are equivariant. Proved end to end (kernel basis, expansion, bias, forward, train/eval) for every group with a lawful irrep table and Clebsch-Gordan coefficients, in particular SO(2) and C_N.  Missing: types in which two representations share an escaped name (see C34), and the layer with a single pair of representations and no intertwiner, whose forward pass raises IndexError (C42_violated_empty).
* **C43** (proved) Convolution with a steerable kernel is equivariant. C43_conv is the claim for every steerable filter; the C43_* of RdConv carry it from the circular harmonics through the basis expansion to forward, for every weight vector, padding mode, dilation and number of groups. Strides must divide the range of the kernel. The module theorems assume escaped representation names distinguish representations (violated otherwise, see C34); for dihedral groups the numerically computed Clebsch-Gordan coefficients are assumed to intertwine.
* **C44** (proved) Transforming a feature map on the grid is a group action. For arrays of any dimension and sizes and for every signed permutation matrix, in particular all elements of C_4 and D_4 and the multiples of 90 degrees of O(2).  The rounding of the matrix to float16 is not modelled.
* **C45** (partial) train()/eval() caching never serves a stale filter. For every history it is proved with which weights a layer in evaluation mode computes.  The property as stated is violated: by weight updates in evaluation mode (also followed by another eval() for convolutions) and by loading the state dictionary of a layer which still holds the zeros of the constructor; it holds for histories without those.
* **C46** (partial) export() preserves the function computed in eval mode. export loses padding_mode, output_padding and ceil_mode, InnerBatchNorm without spatial axes and GNormBatchNorm on images disagree with their exports (violations proved); in the other cases, for every module which defines export, the exported module computes the same on all inputs
* **C47** (partial) evaluate_output_shape predicts the real output shape. Proved for all sizes, strides, dilations, groups, modes for convolutions and transposed convolutions with integer paddings, adaptive poolings, upsampling, antialiased average pooling, and for max/average pooling with an exact criterion in ceil_mode. The full statement is false of the code: a tuple as padding makes evaluate_output_shape raise TypeError; in ceil_mode the last window may be dropped by PyTorch (ceil_violation); antialiased max pooling pads twice (antialiased_violation); NormMaxPool ignores ceil_mode and its forward raises (normmax_violation).
* **C48** (proved) Pointwise nonlinearities commute with permutation representations. Every function, permutation type, input and element; on fibres and (for elements preserving the grid) with transform on feature maps. Regular and quotient representations are shown to be permutations. Necessity: only 0/1 selection rows work for all functions; relu with the sign representation fails. Covers PointwiseNonLinearity, ReLU, LeakyReLU and ELU (they share forward); C48_modules: which types these constructors accept and which function they apply.
* **C49** (proved) Norm nonlinearities are equivariant for orthogonal representations. All orthogonal types, functions (each real function), biases, eps, inputs, elements, and contents of the uninitialised buffer. C49_rescales gives the exact multiplier and shows that every field uses its own entry of log_bias.
* **C50** (proved) Gated nonlinearities are equivariant. GatedNonLinearity1 (gates in the same tensor, dropped or kept), GatedNonLinearity2 (gates in another tensor) and GatedNonLinearityUniform. Representations are well formed (Rep.WF) over a valid table of irreps with a trivial irrep; each gate multiplies exactly one gated field.
* **C51** (proved) Induced norm/gated nonlinearities and pooling are equivariant/invariant for induced representations. For every type whose matrices permute blocks of the flagged size by orthogonal blocks, InducedNormNonLinearity is equivariant and InducedNormPool is invariant. InducedGatedNonLinearity1 is equivariant when gates and gated fields are permuted by the same coset permutation; with different subgroups of the same index it is accepted but not equivariant (C51_gated_subgroups_violated). C51_subSize: the size is read from the one name with the prefix. C51_flags: the flags written by Group._induced_nonlinearities are read back as the size of the inducing representation.
* **C52** (proved) Concatenated nonlinearity is equivariant for sign-permutation representations. For every finite group and every type the constructor accepts; the function is arbitrary. decompose_representation_finitegroup enters only through the size of the change of basis it returns; a representation already registered in the group under the name concatenated_<name> is returned unchecked by the code and excluded by the hypothesis Good.fresh.
* **C53** (proved) Fourier pointwise nonlinearities are exactly equivariant when sampled on the whole group. Both constructors (out_irreps, normalize, any kernel) and forward are modelled; the regularised inverse is proved to exist; equivariance holds for any function on the samples and any grid which lists each element of the finite group once; C53_incomplete_grid shows that the hypothesis on the grid is needed.
* **C54** (partial) Vector field nonlinearity is equivariant when the maximum is unique. Proved for all orders N > 2 and all inputs whose fields have a unique maximum or no positive entry, and for N = 2 with one field. Missing: N = 2 with several fields, where forward raises RuntimeError for each input (C54_two_violated). With ties the module is not equivariant (C54_ties_violated).
* **C55** (proved) Group pooling and norm pooling are invariant. GroupPooling for permutation representations and NormPool for orthogonal ones: the output is the maximum (norm) of each field, unchanged by the action, for each order of fields and content of the uninitialised memory. NormPool accepts non-orthogonal representations; a witness shows that its output then changes.
* **C56** (partial) Batch normalisation is equivariant in training and evaluation, with running statistics unaffected by transforming inputs. Every history of calls in training and evaluation mode, every transformed batch. IIDBatchNorm and NormBatchNorm for orthogonal representations (violated for others, which the constructors accept), InnerBatchNorm for permutation matrices on spaces of dimensionality 1 to 3 (raises for dimensionality 0), GNormBatchNorm for all representations on inputs with two spatial axes or without a change of basis (raises otherwise).
* **C57** (partial) Field normalisation is equivariant. Proved for all inputs, weights, biases, eps > 0 and every type of orthogonal representations with distinct names (attributes are keyed by name); for a non-orthogonal representation, which the constructor accepts, the property is false: C57_not_orthogonal_violated.
* **C58** (partial) Field dropout drops whole fields and keeps the mean. FieldDropout: the factor is common to the entries of a field for every type without inplace, and with inplace when the fields of each size follow each other; otherwise inplace leaves fields unchanged (C58_inplace_violated), so the statement about inplace is false in general. Evaluation mode and PointwiseDropout are covered completely. For p = 1 dropout_field divides 0 by 0, which real numbers do not represent.
* **C59** (proved) Norm max pooling and pointwise max pooling commute with the fibre action. Whenever a pooling module accepts a feature map it accepts the feature map with transformed fibres, and the outputs are related by the action. Covers the plain, antialiased, adaptive and average variants in addition to NormMaxPool and PointwiseMaxPool.
* **C60** (proved) Masking with build_mask is invariant under the grid symmetries. All sizes, dimensions and margins, sigma nonzero (sigma = 0 raises ZeroDivisionError); rotations and flips are the elements whose base space matrix is a signed permutation, the ones transform applies exactly.
* **C61** (partial) Product-group irreps have the right type, size and homomorphism property. Homomorphisms and characters: all types. Decomposition by the R/C/H rule, exact commutant and irreducibility: all pairs of types except the two where the claim is false. H with H: the irrep returned is reducible (proved). R with H: irreducible, but endomorphism_basis is wrong exactly when the first factor has more than one dimension (proved).
* **C62** (proved) Basis sampler: sampling then contracting equals contracting then sampling. All layouts, points, weights, inputs with groups=1 and at least one point. Hypotheses: same name implies same size, names without dots (otherwise the constructor raises KeyError: C62_dot_violation), kernels of the right shape. A single pair with an empty basis raises IndexError in both orders. For groups>=2 the orders differ (C62_groups_violation).
* **C63** (partial) He initialisation variances are consistent with the basis. Proved for every layout: positive, 1/(inputs_count*basis_count), constant over (input irrep, output irrep position) groups, hence per harmonic of such a pair. Read at the level of field representations the constancy is false: C63_fields_violation gives two weights of the same two fields and the same harmonic with variances 1/4 and 1/8.
* **C64** (partial) Representation and group-element equality is an equivalence compatible with hashing. Equality and hashes proved for the cyclic, dihedral, octahedral, icosahedral groups and products. Ids round-trip except those of nested direct products with elements of a factor of a factor (ValueError) and empty tuples (IndexError); get_irrep_id of a name returns the irrep instead of its id.
* **C65** (proved) Kernel bases on the plane are steerable end to end. Adjoint=None and max_offset=None. C65_o2 covers kernels_O2_act_R2. For D_N and O(2) the Clebsch-Gordan coefficients computed by the generic numerical solver enter by their contract (they intertwine).
* **C66** (partial) Reused sampled filters are those which would be computed. Proved for every history in which the bases without a filter have one axis (C66_o2_partial, C66_subgroup_partial); bases with a filter may have any axis, as they are found only by the identity of their tensor _filter (keys whose hashes agree by accident are not modelled). C66_reuse is the general principle. False when the axes differ: CircularShellsBasis.__eq__ and __hash__ ignore the axis, so the filters of another axis are returned and break equivariance (C66_axis_violated).
* **C67** (partial) Representation.tensor is the tensor product. Everything proved for every valid table of irreps with Clebsch-Gordan coefficients satisfying the laws of C15 (instances C_N, SO(2)), except the declared nonlinearities: pointwise and gate are justified, norm only when both factors are orthogonal. Violation exhibited: tensor declares norm although a factor which does not support it is not orthogonal.
* **C68** (proved) TensorProductModule is equivariant. For every group given by an irrep table with Clebsch-Gordan coefficients satisfying CGLaw (instances: cyclic groups, SO(2)). The name of the tensor square must not be registered already; the cache of build_fiber_intertwiner_basis by names is not modelled (see C22).
* **C69** (proved) The kernel bases are complete. Completeness of the bases of both solvers, of SteerableKernelBasis and of the kernel bases on the plane for SO(2) and C_N; Schur's lemma for the irreps of SO(2) and C_N and independence of the circular filters are proved. For other groups the generic theorems take a valid Clebsch-Gordan table and Schur's lemma as hypotheses.
* **C70** (proved) The elements of the kernel bases are linearly independent. Generic for orthonormal Clebsch-Gordan tables; instances SO(2), C_N, linear maps, and the plane. Independence of the Gaussian shells is proved when the pairs (radius, sigma) are distinct.
* **C71** (proved) Upsampling commutes with the symmetries of the grid. torch.nn.functional.interpolate is modelled by its documented formulas in exact arithmetic; the two violations show that the exceptions in the statement are needed; C71_init states which arguments the constructors accept
* **C72** (proved) Poolings commute with the symmetries of the grid. All the pooling modules over feature maps, on grids of any dimension and sizes. The condition on the sizes is shown to be necessary for max pooling (C72_max_iff).
* **C73** (proved) Transposed convolutions commute with the symmetries of the grid. For any steerable filter (C73_conv), for the modules given kernel bases which are steerable (C73_module) and for the cyclic groups on the plane (C73_cyclic). With output padding it is false (C73_output_padding_violated).
* **C74** (proved) Point convolutions commute with the symmetries. C74_module holds for every steerable filter basis and every group acting linearly on the points; C74_so2 and C74_cyclic instantiate it for the planar kernels (with any basis filter). C74_groups covers several groups: a layer either raises in every call or commutes. C74_value gives the features which a layer returns, C74_edge_order and C74_relabel say that the order of edges and points does not matter. The violated theorems show that calls without edges and evaluate_output_shape on two-dimensional features raise.
* **C75** (proved) SO(3) and the maps of its subgroups. scipy's Rotation enters through its contract (AsQuat: as_quat returns one of the two quaternions); the groups of the solids enter through the contract RotGroup.Lawful
* **C76** (partial) O(3) and the maps of its subgroups. proved except for the ids ('cone', a, n) with a float axis, where the code violates the statement: the reflections are at the angle -a (C76_cone_axis_violated)
* **C77** (partial) Subgroups of subgroups of SO(3) and O(3). proved for the subgroups of SO(3), SO(2), C_N, O(2), D_N inside SO(3), for the icosahedral group and its subgroups with n = 1, 2 (n = 3, 5 when not conjugated), for O(3) and SO(3) inside O(3); the code violates the statement for the other ids of O(3) (exact conditions in C77_cone_partial, C77_pyramid_partial) and for conjugated icosahedral groups; the subgroups of the icosahedral group with flips raise NotImplementedError and (True, 1) is rewritten to (False, 2) before (C90_flip, C90_id_errors)
* **C78** (partial) The symmetries of the gspaces of R^3. the set of symmetries of every constructor is determined exactly; for conicalOnR3 and mirOnR3 the reflections are at -axis, which violates the statement (C78_axis_violated); fullCylindricalOnR3, whose axis is not documented, uses half the angle
* **C79** (proved) Irreps of SO(3) and O(3) and their restrictions. wigner_D_matrix of lie_learn is described by the contract Wigner (its values on the rotations around Z and on the half turn around Y, multiplicativity, orthogonality, degree one); matrices meeting it are constructed for l = 1 and 2. For the solids and other ids without a closed form the code decomposes the restriction numerically, which is not modelled.
* **C80** (proved) Characters, tensor products and band-limited regular representations of SO(3) and O(3). Under the contract Wigner for the matrices of lie_learn. The numbers are exact reals; np.isclose(sin, 0.) is |sin| <= 1e-8.
* **C81** (partial) Kernel bases on R^3 are steerable. Harmonics, shells and kernels of O(3), SO(3) and their subgroups are proved steerable, for coefficients of the tensor products which meet their contract (they are solved for numerically, trusted base), with the number of kernels for O(3). The last clause is false and its negation proved: without maximum_frequency GSpace3D._basis_generator raises TypeError, and it never calls the functions for the whole groups (it calls those for subgroups with the whole group instead). Subgroups: SO(3), SO(2), C_N, inversion, O(2) and D_N as half turns, the cone; the general theorem takes any other subgroup whose maps and restrictions are correct (C76, C79). The functions for full Platonic symmetries raise NotImplementedError and are not modelled.; the tuple of a subgroup determines its id and adjoint element; The coefficients of O(3) follow from those of SO(3) (C81_o3_coefficients); for an irrep of the wrong parity the code raises TypeError, since np.zeros gets four arguments.
* **C82** (partial) Harmonics of homogeneous spaces and sparse orbit bases are steerable. Proved for all finite groups, subgroups, orthogonal actions, roots, harmonics and widths. False with a change_of_basis which does not commute with the action (violation proved): the basis is then steerable under the conjugated action if that one is orthogonal (C82_sparse_steerable), but basis.action is the original one.
* **C83** (partial) Numerical decomposition of representations. For finite groups everything is proved, the trivial group excepted, for which the code always raises (C83_trivial_group_violated). For groups without finitely many generators the code only checks the sampled elements, so C83_general_partial covers the products of generators and sampled elements; that the sampled elements generate a dense subgroup is missing, and so is the totality of decompose_representation_general. The change of basis of the finite case is orthogonal with exact routines; the code does not check it. Exactness of the singular value decomposition, of orth and of the optimiser is a contract, shown to be inhabited.
* **C84** (partial) Numerically computed Clebsch-Gordan coefficients decompose the tensor product. Soundness is proved for all types of irreps, all numerical routines and all samples, for the group which the generators and the samples of the check generate (C84_sound, C84_decomposition). That the calls succeed with exact routines is proved for irreps of real type and for the finite groups whose irreps are all of real type, in particular D_N (C84_real, C84_exact, C84_dihedral). Missing: success for irreps of complex and quaternionic type; for a multiplicity of at least two the assertions L145 and L148 may fail, since they need a basis which is adapted to the endomorphisms. For infinite groups the result is an intertwiner on the subgroup generated by the samples only.
* **C85** (partial) The octahedral group, its irreps and its subgroups. Group, membership, generators, irreps (built from the generators, for every order of iteration), their completeness, the numerical Clebsch-Gordan coefficients, the standard representation, the subgroup of SO(3), the inclusions of the cyclic subgroups and the meaning of cube_vertices and cube_faces are proved. The code violates the rest: the map to a cyclic subgroup gives None for half of the quaternions of its elements (C85_child_violation; C85_child_partial is what holds), cube_edges is not the action on the edges (C85_edges_violation), and the restriction to the trivial subgroup names an irrep which does not exist (C85_restrict_trivial_violation). Trusted: the contract of the Wigner matrix of frequency 1 and of scipy's Rotation.; The restriction of irreps to the whole group and, given the numerical decomposition for the subgroup which is not conjugated (C83), to the cyclic subgroups is proved for every adjoint element.
* **C86** (partial) Parameters of the kernel bases computed by the convolutions. The rings, widths, filter and maximum frequency are proved for all arguments, and that the defaults are accepted. The last sentence is false: the policies get the half of the undilated kernel size, so that the cut-offs change with the dilation; proved by two violations.
* **C87** (partial) Grids on the sphere. The points of the grids, the elements of O(3) and find_rotation_pole2point are proved. Violated: the elements of SO(3) returned by sphere_grid send the pole to the antipode of the point (C87_so3_sphere_violation), and the Fibonacci grid with one point is NaN (C87_fibonacci_violation). healpix returns 12 N^2 points, although the documentation of its parameter says about N.
* **C88** (proved) Regular grids of planar groups and sampling of band-limited functions. Angles are exact reals. The constant in C88_sampling is c/(c+1e-8), where 1e-8 is the ridge added by the code to the matrix which is inverted.
* **C89** (proved) The icosahedral group and its irreps. The Wigner matrices of frequency 1 and 2 are given by their contract; entries and quaternions are exact numbers; the order of create_group('I') of scipy is part of the model, of which positions 0 and 21 are used.
* **C90** (partial) The subgroups of the icosahedral group. Inclusions, trivial and whole subgroup, the flip, errors and the meaning of vertices, faces and edges are proved. The code violates the rest: the map to a cyclic subgroup gives None for one of the two quaternions of its elements (C90_child_violation; C90_child_partial is what holds). Trusted: the contract of scipy's Rotation.; The restriction of irreps is proved for every adjoint element; the decomposition for the subgroup which is not conjugated, computed by the numerical routine restrict_irrep (C83), is its hypothesis.
* **C91** (proved) Delta-orthogonal initialisation. ortho_group.rvs and torch.randn are arguments; the contract of the first is that the matrix is orthogonal (rows and columns). C91_single: with one input and one output position the factor is always -1, because torch.randint(0, 1) never returns 1.
* **C92** (partial) Optimised grids (Thomson problem). Proved for the GPU. The first sentence is false on the CPU, for which best_X shares the memory of X: the last array is returned instead of the best one (C92_result, violation proved in C92_cpu_violation). Steps of the optimiser, torch.isclose and the random numbers are arguments; sums and norms are exact. That the group of scipy is closed is a hypothesis, shown to hold for the 24 rotations of C85.
* **C93** (proved) Diagonal subgroup of a double group. For every group whose equality of elements is exact and whose pairs are accepted by the direct product (C04). Groups with a product as second factor are broken (C04_right_nested_violated).
* **C94** (proved) Irreps of bounded frequency. SO(2) and SO(3) run the same code, modelled once. Ids (l,) are modelled as l. The ids of the irreps of C_N, D_N and O(2) are those accepted by irrep() (Cyclic.irrepIds, Dihedral.irrepOk, O2.irrepOk); for SO(3) and O(3) all frequencies and both parities. The regular representations of SO(3) and O(3) are in C80.

## Per-property plan (written before the proofs)

* **C01** Cyclic group elements form a group and are enumerated exactly once. Model `_inverse/_combine/_is_element/elements` on Int with Python `%`; prove group laws by Int.emod lemmas; enumeration via List.range.
* **C02** Dihedral group elements form a group and are enumerated exactly once. Same with pairs (flip,rot).
* **C03** SO(2) and O(2) composition and inversion satisfy the group laws. Angles as reals; equality = congruence mod 2*pi (exact version of cycle_isclose); prove laws up to this congruence and that ops respect it.
* **C04** Direct products are groups acting componentwise. Generic groups as records of operations; prove laws of product from laws of factors.
* **C05** Cyclic subgroups: inclusion and restriction are mutually inverse homomorphisms. Model `_subgroup` maps as partial functions (Option); prove hom, injectivity, left inverse, None iff not in image.
* **C06** Dihedral subgroups: inclusion and restriction are mutually inverse homomorphisms. Model all six map constructors; prove for axis < N/M, prove negation (witness) for axis >= N/M.
* **C07** O(2)/SO(2) subgroup maps are mutually inverse homomorphisms. Exact-real model of SO2/O2 maps.
* **C08** Composing subgroup ids composes inclusions. Model `_combine_subgroups` for C_N, D_N, O2; prove inclusion composition.
* **C09** Cyclic irreps are orthogonal homomorphisms with the advertised character, type and total dimension. psi over Real; homomorphism/orthogonality by trig identities; dimension count by Nat arithmetic over all N.
* **C10** Dihedral irreps are orthogonal homomorphisms with the advertised character and total dimension. As C09 with psichi.
* **C11** SO(2) and O(2) irreps are orthogonal homomorphisms with the advertised character. As C09 for real angles.
* **C12** Restricting an irrep of C_N, D_N, SO(2), O(2) gives a correct change of basis and irrep list. Model the `_restrict_irrep` case analyses literally; prove conjugation identity.
* **C13** Restricting a representation is composition with the inclusion. Representation = irreps list + change of basis matrix; prove restrict formula.
* **C14** Direct sums and basis changes of representations are representations. Block-diagonal matrices over lists of irreps.
* **C15** Clebsch-Gordan coefficients of SO(2) and C_N intertwine the tensor product with its summands. CG arrays of so2/cyclic as explicit matrices; prove intertwining, orthonormality.
* **C16** The regular representation permutes group elements and its change of basis block-diagonalises it. Permutation matrix from left multiplication over `elements` list.
* **C17** Quotient and induced representations act on cosets. Induced matrix by coset representative; cocycle proof of homomorphism.
* **C18** Endomorphism bases commute with their irrep and are orthogonal. Explicit matrices; commutation proofs.
* **C19** disentangle returns an equivalent block-diagonal representation. Connected components of mask; permutation proof.
* **C20** Irrep matrices generated from generators agree with the group law. BFS closure invariants (every assigned matrix is the true one; termination/completeness).
* **C21** Parametrisation changes round-trip. Model `_change_param`; round trip proofs, negation for MAT.
* **C22** Cached objects do not depend on call history. Cache as association list state machine keyed as in the code; history independence when key determines value; negations.
* **C23** Field type bookkeeping is consistent. List prefix sums.
* **C24** FieldType.sorted, group_by_labels and restrict preserve the fields. Stable sort / filter lemmas.
* **C25** transform_fibers and representation of a field type is the block-diagonal action. Block action on lists of field vectors.
* **C26** split then tensor_directsum is the identity and slicing selects exactly the requested fields. split/getitem on lists, Python slice semantics.
* **C27** Arithmetic on geometric tensors is equivariant and type-checked. Linear maps.
* **C28** Reshuffle, branching and merging route whole fields and commute with the action. Lists of fields; permutations; routing tables.
* **C29** Channel index tables address exactly the labelled channels, and contiguity detection is sound. check_consecutive_numbers and indexes_from_labels on Nat lists.
* **C30** SequentialModule composes equivariant maps and keeps module order across histories. Composition; OrderedDict-name state machine for append/slice; negation for slice+append.
* **C31** Restriction and Disentangle modules preserve data and commute with the subgroup action. Matrices.
* **C32** Basis-expansion weights are partitioned exactly among representation pairs. Prefix sums over pairs.
* **C33** get_element_info(id) and get_basis_info() agree and invert the weight layout. Mixed-radix decode.
* **C34** Basis expansion writes every (output channel, input channel) block exactly once and yields an equivariant filter. Scatter of blocks into matrix.
* **C35** Wigner-Eckart kernels satisfy the steerability constraint. einsum as Finset sums; abstract group.
* **C36** Restricted Wigner-Eckart kernels satisfy the subgroup constraint. same plus restriction coefficients.
* **C37** Kernel-basis attribute indices decode uniquely and iterators agree with random access. Mixed radix.
* **C38** SteerableKernelBasis between arbitrary representations is steerable. Matrix algebra, slices.
* **C39** Circular harmonics are steerable under O(2). Trig over points r(cos, sin), and atan2 via Complex.arg.
* **C40** Polar basis index layout is consistent. Index arithmetic; negation for CircularShellsBasis.__getitem__ assertion etc.
* **C41** Equivariant bias vectors are exactly invariant. Trivial columns of cob.
* **C42** Linear layers are equivariant. Matrix.
* **C43** Convolution with a steerable kernel is equivariant. Integer grid convolution, finite sums over Z^2.
* **C44** Transforming a feature map on the grid is a group action. Signed permutations of coordinates on centred grids.
* **C45** train()/eval() caching never serves a stale filter. State machine with invariant; negation for eval-update-eval.
* **C46** export() preserves the function computed in eval mode. Function equality; negations for padding_mode and ceil_mode.
* **C47** evaluate_output_shape predicts the real output shape. Integer floor formulas against an independent window-count specification; negations.
* **C48** Pointwise nonlinearities commute with permutation representations. Permutation matrices; negation for rotation matrices.
* **C49** Norm nonlinearities are equivariant for orthogonal representations. Norm scale maps.
* **C50** Gated nonlinearities are equivariant. Gate routing.
* **C51** Induced norm/gated nonlinearities and pooling are equivariant/invariant for induced representations. Block-permutation.
* **C52** Concatenated nonlinearity is equivariant for sign-permutation representations. Signed permutations.
* **C53** Fourier pointwise nonlinearities are exactly equivariant when sampled on the whole group. Fourier A/Ainv algebra on full grid.
* **C54** Vector field nonlinearity is equivariant when the maximum is unique. Argmax; negation at ties.
* **C55** Group pooling and norm pooling are invariant. Max over permuted list; norms.
* **C56** Batch normalisation is equivariant in training and evaluation, with running statistics unaffected by transforming inputs. Running stats fold over history.
* **C57** Field normalisation is equivariant. Norm statistics.
* **C58** Field dropout drops whole fields and keeps the mean. Mask algebra; negations inplace/p=1.
* **C59** Norm max pooling and pointwise max pooling commute with the fibre action. Argmax by norm.
* **C60** Masking with build_mask is invariant under the grid symmetries. Distance symmetric mask.
* **C61** Product-group irreps have the right type, size and homomorphism property. Kronecker products.
* **C62** Basis sampler: sampling then contracting equals contracting then sampling. Sum exchange.
* **C63** He initialisation variances are consistent with the basis. Counting.
* **C64** Representation and group-element equality is an equivalence compatible with hashing. Decidable equality/hash; SO2 tolerance negation; encode/decode.
* **C65** Kernel bases on the plane are steerable end to end. Composition of C39, C40, C37/C38.
* **C66** Reused sampled filters are those which would be computed. Invariant of the dictionary over histories; congruence of sampling; counterexample with two axes.
* **C67** `Representation.tensor`. Model the two loops with the array they fill; prove that after each iteration the filled part is block diagonal, that the permutation array turns `A ⊗ (⊕ ρ)` into `⊕ (A ⊗ ρ)`, and that the Clebsch–Gordan columns of each pair form an orthogonal intertwiner.
* **C68** TensorProductModule. Model the constructor (with `Representation.tensor` of C67 and the blocks expansion of C34), `train`, `forward` with the flat views, and the declared shape; the hidden representation is the Kronecker square by C67, so the intertwiner law of the expanded matrix gives equivariance of the quadratic map.
* **C69** The kernel bases are complete. Coefficients of a steerable kernel in independent filters are equivariant tensors; the resolution of the identity by the Clebsch–Gordan columns and Schur's lemma (commutant of each irrep = `endomorphism_basis`, no intertwiners between different irreps) write each block in the elements of the solver; independence of Gaussians (growth) and of harmonics (characters).
* **C70** The kernels are linearly independent. A vanishing combination vanishes pair of irreps by pair of irreps (the changes of basis are invertible and the pairs occupy disjoint blocks), then filter by filter, then copy by copy because the Clebsch–Gordan columns are orthonormal, then endomorphism by endomorphism because these are orthogonal.
* **C71** Upsampling. Model `interpolate` by its source indices and weights; the linear weights are hat functions of the source coordinate, which is mirrored with the output; a lemma on separable operators turns the symmetry of the weights along each axis into equivariance; for `nearest` the index `⌊o W / M⌋` is mirrored for all `o` exactly when `W ∣ M`.
* **C72** Poolings. The windows of the mirrored image are the mirrored windows when they reach both ends of the axes; so the lists of values in the windows are permutations of each other, which determines sums and maxima; linear poolings commute with every mixing of the channels, the others with permutations of the channels; the adaptive bounds are mirrored for all sizes; the Gaussian filter is symmetric.
* **C73** Transposed convolution. The input pixel which an entry of the filter connects to an output pixel is mirrored with both when there is no output padding; the filter intertwines the whole input representation with that of one group of output fields, and the representations are block diagonal over the groups.
* **C74** Point convolution. The kernel sampled at the moved difference of two points is conjugated by the representations (steerability of the sampled basis); so the message of each edge is rotated, whichever order of contraction `basissampler_blocks` takes; the mean of the messages is linear and the bias is invariant.
* **C75** SO(3). Unit quaternions act as matrices `rotOf q`; a rotation fixes its quaternion up to sign. Each pair of maps is a conjugation composed with a map between a planar group and rotations around Z and flips; what the maps use of SO(2), C_N, O(2), D_N is collected in two structures (`Circle`, `Plane`) proved for all four groups.
* **C76** O(3). The determinant separates the inversion from the rotation, which reduces each map to the one of SO(3); for cones the composition with the fixed reflection does.
* **C77** Subgroups of subgroups. Every id denotes the conjugates of one set of matrices, so a combined id is right as soon as its adjoint element acts as the product of the two; for the solids the code computes this element from a matrix moving the pole to an axis, which is read off through the quaternion of a rotation (every rotation matrix has one).
* **C78** Gspaces of R^3. The set of matrices of a subgroup is read off its inclusion (C76); half turns and reflections are written with the projection on a line, independently of the quaternions.
* **C79** Irreps of SO(3) and O(3). The Wigner D matrices come from a library and are described by a contract (their values on the rotations around Z, on the half turn around Y and in degree one, and multiplicativity); matrices meeting it are constructed for degrees one and two. The changes of basis in the code are signed permutations, so each restriction reduces to the blocks of the rotations around Z and of the half turn.
* **C80** Characters. Every rotation is conjugate to one around Z, so by the contract the trace is the sum of cosines; the closed form and the Clebsch-Gordan series are identities of this sum, proved by induction on the degree.
* **C81** Kernel bases on R^3 are steerable. The harmonic polynomials by induction on the degree: the rows of the change of basis of the tensor product which belong to the last irrep intertwine it (C67), so the recursion transforms with the irrep of the next degree. Steerability of the shells from that (C39), of the kernels from C38 with the irreps of O(3) of C79, of the subgroups by restricting (C13, C76, C79). The Clebsch-Gordan coefficients, which the code solves for numerically, enter by their contract, which is inhabited for two vectors by the scalar, cross and symmetric traceless product.
* **C82** Harmonics of homogeneous spaces and sparse orbit bases. Model `HomSpace.basis`, `complete_basis` and the constructor of `SparseOrbitBasis` (rounding and the sorting of `np.unique` as arguments); the Dirac kernel intertwines the restriction with psi (C17), so the harmonics transform on both sides; the number of distinct rounded points forces one representative per coset, and a sum over cosets of a function constant on cosets is invariant under left translation.
* **C83** Numerical decomposition. Model group/_numerical.py with the results of the singular value decomposition, of `orth` and of the optimiser as arguments. The Sylvester constraint by expanding the Kronecker sum; multiplicities from the orthogonality of characters (C09, C10); soundness because the assertions check the generators and intertwining is closed under products; totality with a contract of exactness (shown to be inhabited), for which reordering a direct sum has to be a conjugation by an orthogonal matrix.
* **C84** Clebsch–Gordan coefficients computed numerically. Soundness: the check of the loop makes every column an intertwiner on the generated group (`buildSylvester_spec`), Schur makes the norm independent of the column, the final assertion gives orthonormality within an irrep and Schur between irreps, the sum of the sizes gives completeness. Exactness: an orthonormal basis of the kernel is, for real type, orthonormal after the normalisation, so that every component is a single column; the multiplicities are inner products of characters (`invariants_trace`) and sum up by the regular character.
* **C85** The octahedral group. The 24 elements as integer matrices, group laws and characters by kernel evaluation of closed statements about the list; the irreps from words in the generators; completeness from the orthogonality of the characters; quaternions of both signs by the two-to-one cover.
* **C86** Parameters of the kernel bases. One structure states rings, widths, filter and maximum frequency without the helpers of the model; the policies are bounded on the rings which the defaults produce; the dependence on the dilation is evaluated at size 5.
* **C87** Grids on the sphere. Points in polar coordinates with distinct parameters are distinct; the rows of healpix are counted ring by ring; the representatives by computing the determinant of the matrix of columns.
* **C88** Regular grids of planar groups. The grid is the image of a finite cyclic or dihedral group under an injective homomorphism; the sampling theorem from the orthogonality of sines and cosines on the grid.
* **C89** The icosahedral group. Entries of matrices are exact numbers of the field of the golden ratio; closure is checked for the generators only and extended by words; the irreps 3 and 4 are the conjugate of the rotation matrix and the permutations of five frames; real type from the norm of the characters.
* **C90** The subgroups of the icosahedral group. The quaternions of `cn_to_ico` are computed exactly; membership is C89; the rest is a finite check on matrices of golden numbers, extended to both quaternions of each rotation.
* **C91** Delta-orthogonal initialisation. The assignments to the tensor are a list of pairs; an index is assigned one value only, since its attributes determine irrep and positions. The assertions are equivalent to a full grid of positions with constant multiplicity; orthonormality follows from the contract of `ortho_group.rvs` and the normalised rows of the noise.
* **C92** Optimised grids. The steps of the optimiser are an argument; an invariant of the loop relates `best_U` and the saved array to the visited arrays. On the CPU `X.detach().cpu()` is the same memory as `X`, so that the saved array is the last one. The cube variants follow from closure of the group and from the matrices of the multiplication of quaternions.
* **C93** Diagonal subgroup of a double group. Direct from the definitions; the construction of the pair is C04.
* **C94** Irreps of bounded frequency. Membership and absence of repetitions, by cases on the parity; the counts by induction on L.

## Modelled code

Line ranges of `/repo` cited by the comments of the definitions in `lean/Verif/Model/` (generated from these comments). Where several files share a name, the ranges are the union of the citations of all of them; the comments tell which file is meant.

* `escnn/group/_clebsh_gordan.py`: 53-166, 173-209
* `escnn/group/_numerical.py`: 45-79, 82-101, 104-129, 132-206, 220-320, 323-375, 378-422, 465-516, 519-612, 615-716, 719-806
* `escnn/group/groups/_numerical_thomson.py`: 1-535
* `escnn/kernels/basis.py`: 20-100, 169-190, 200-206, 212-221
* `escnn/nn/modules/basismanager/basisexpansion_blocks.py`: 50-281, 286-378
* `escnn/nn/modules/basismanager/basisexpansion_singleblock.py`: 33-76, 83-104, 120, 124-160, 187-208
* `escnn/nn/modules/basismanager/basissampler_blocks.py`: 44-265, 270-528
* `escnn/nn/modules/basismanager/basissampler_singleblock.py`: 15-95, 116-147
* `escnn/nn/modules/branching_module.py`: 24-219
* `escnn/nn/modules/nonlinearities/concatenated.py`: 20-83, 121-146, 149-236
* `escnn/group/groups/cyclicgroup.py`: 22-26, 55, 64, 67, 71-77, 101-184, 190-231, 277-283, 306-309, 313-363, 374-381, 399-535, 547-561, 564-579, 582-586, 589-601
* `escnn/group/groups/dihedralgroup.py`: 19-23, 91-93, 98-103, 129-212, 218-266, 308-350, 361-364, 368-382, 415-468, 480-495, 518-541, 547-636, 648-674, 677-703, 708-722, 725-736, 742-757, 760-772, 778-792, 795-806
* `escnn/group/directproduct.py`: 21-30, 33-353, 401-454, 482-492, 520-576, 616-649, 711-732, 735-750, 753-820, 824-981
* `escnn/nn/modules/disentangle_module.py`: 38-119
* `escnn/group/doublegroup.py`: 98-160
* `escnn/nn/modules/nonlinearities/elu.py`: 36-70, 113-120
* `escnn/group/groups/factory.py`: 147-159, 198-207, 210-221, 224-233, 236-247, 250-280, 283-311, 314-336, 339-361
* `escnn/nn/modules/dropout/field.py`: 20-41, 44-167
* `escnn/nn/field_type.py`: 70-84, 90, 101-106, 119-156, 216-261, 338-441, 456, 468-557, 576-580
* `escnn/nn/modules/normalization/fieldnorm.py`: 21-161, 175-275
* `escnn/nn/modules/nonlinearities/fourier.py`: 19-30, 35-199
* `escnn/nn/modules/nonlinearities/fourier_quotient.py`: 19-31, 36-222
* `escnn/nn/modules/nonlinearities/gated1.py`: 29-253
* `escnn/nn/modules/nonlinearities/gated2.py`: 26-207
* `escnn/nn/modules/nonlinearities/gated3.py`: 24-140
* `escnn/nn/geometric_tensor.py`: 226-253, 291-445, 505-551, 554-784, 817-859
* `escnn/nn/modules/batchnormalization/gnorm.py`: 21-187, 203-307, 323-391, 415-483
* `escnn/nn/modules/invariantmaps/gpool.py`: 22-125, 163-200, 219-233
* `escnn/group/group.py`: 20-313, 337-343, 369-370, 431-579, 613-719, 749-844, 853-887, 904-948, 953-1064, 1430
* `escnn/gspaces/gspace.py`: 225-228, 355-458
* `escnn/kernels/harmonic_polynomial_r3.py`, `escnn/nn/modules/harmonic_polynomial_r3.py`: 15-86
* `escnn/group/homspace.py`: 62-454
* `escnn/group/groups/ico.py`: 22, 56-58, 63-68, 99-126, 131-174, 200-354, 365-387, 412-419, 448-502, 513-586, 600-660, 671-745
* `escnn/nn/modules/identity_module.py`: 30-44, 56-65
* `escnn/nn/modules/batchnormalization/iid.py`: 28-168, 180-205, 216-307, 341-429
* `escnn/nn/modules/nonlinearities/induced_gated1.py`: 26-270
* `escnn/nn/modules/batchnormalization/induced_norm.py`, `escnn/nn/modules/invariantmaps/induced_norm.py`, `escnn/nn/modules/nonlinearities/induced_norm.py`: 20-211
* `escnn/nn/init.py`: 16-84, 87-162
* `escnn/nn/modules/batchnormalization/inner.py`: 28-119, 131-167, 183-245
* `escnn/group/irrep.py`: 73-134, 162-220, 234-276
* `escnn/nn/modules/nonlinearities/leakyrelu.py`: 33-75, 118-127
* `escnn/nn/modules/linear.py`: 24-207, 222-281, 289-311
* `escnn/nn/modules/masking_module.py`: 27
* `escnn/nn/modules/merge_module.py`: 40-134
* `escnn/nn/modules/multiple_module.py`: 64-120
* `escnn/nn/modules/batchnormalization/norm.py`, `escnn/nn/modules/invariantmaps/norm.py`, `escnn/nn/modules/nonlinearities/norm.py`: 20-255
* `escnn/nn/modules/pooling/norm_max.py`: 54-233
* `escnn/group/groups/o2group.py`: 26-29, 138-177, 213-262, 266-325, 357-371, 411-425, 457-514, 543-564, 605-615, 621-690, 724-745, 748-769, 774-789, 792-800, 806-821, 824-836, 842-855, 858-867
* `escnn/group/groups/o3group.py`: 26-30, 106, 112-113, 159-208, 225-242, 375-387, 422-841, 868-876, 915-920, 939-962, 971-989, 1003-1006, 1036-1047, 1059-1063, 1114-1124, 1128-1184, 1188-1205, 1209-1217, 1236-1248, 1251-1262, 1271-1286, 1289-1297, 1302-1321, 1324-1337, 1342-1367, 1370-1383, 1388-1423, 1426-1447, 1453-1492, 1495-1523, 1529-1559, 1562-1584, 1589-1604, 1607-1621, 1626-1650, 1653-1669, 1674-1708, 1711-1735
* `escnn/group/groups/octa.py`: 56-58, 63-67, 100-127, 132-165, 187-342, 357-378, 401-460, 472-552, 560-620, 633-639, 643-764
* `escnn/nn/modules/dropout/pointwise.py`, `escnn/nn/modules/nonlinearities/pointwise.py`: 15-89
* `escnn/nn/modules/pooling/pointwise_adaptive_avg.py`: 69-91
* `escnn/nn/modules/pooling/pointwise_adaptive_max.py`: 20-97, 104-118
* `escnn/nn/modules/pooling/pointwise_avg.py`: 51-57, 84-124, 171-203, 215-246
* `escnn/nn/modules/pooling/pointwise_avg_3d.py`: 79-122, 216-249
* `escnn/nn/modules/pooling/pointwise_max.py`: 23-156, 163-176, 226-239, 242, 248-285
* `escnn/kernels/polar_basis.py`: 50-119, 122-151, 156-569, 587-1018
* `escnn/gspaces/r0.py`: 42-81
* `escnn/gspaces/r2.py`, `escnn/kernels/r2.py`: 26-70, 73-126, 132-165, 168-200, 205-262, 265-327
* `escnn/nn/modules/pointconv/r2_point_convolution.py`: 151-168, 193-198, 201-247
* `escnn/nn/modules/conv/r2_transposed_convolution.py`: 119-139, 255-283
* `escnn/nn/modules/conv/r2convolution.py`: 193-231, 349-377, 402-407, 410-465, 468-486, 489-507, 510-528
* `escnn/gspaces/r3.py`, `escnn/kernels/r3.py`: 49-186, 189-198, 201-203, 206-211, 214-216, 219-224, 227-259, 262-293, 296-305, 308-324, 327-336, 339-348, 351-360, 363-374
* `escnn/nn/modules/conv/r3_transposed_convolution.py`: 119-140
* `escnn/nn/modules/conv/r3convolution.py`: 342-370, 395-400, 403-458, 461-479, 482-500, 503-521
* `escnn/nn/modules/conv/rd_convolution.py`: 128-242, 262-280, 296-349, 379-401
* `escnn/nn/modules/pointconv/rd_point_convolution.py`: 113-207, 230-244, 274-382
* `escnn/nn/modules/conv/rd_transposed_convolution.py`: 107-223, 243-262, 278-331
* `escnn/nn/modules/rdupsampling.py`: 25-159, 164-207, 290-333
* `escnn/nn/modules/nonlinearities/relu.py`: 35-65, 108-115
* `escnn/group/representation.py`: 34-241, 277-286, 324-350, 369-379, 391-435, 460-511, 517-585, 588-722, 725-763, 766-856, 896-1002, 1026-1031, 1043-1058, 1068-1116
* `escnn/nn/modules/reshuffle_module.py`: 18-73
* `escnn/nn/modules/restriction_module.py`: 44-58, 90-99
* `escnn/nn/modules/sequential_module.py`: 57-69, 74-114, 117-125, 129-133, 140-145, 150-169
* `escnn/group/groups/so2group.py`: 21-24, 105-169, 175-214, 221-249, 284, 316-361, 384-411, 426-465, 469-523, 538-549, 552-563, 566-571, 574-584
* `escnn/group/groups/so3_utils.py`: 31, 72-113, 116-122, 125-130, 133-152, 155-187, 195-201, 204-220, 246, 249-272, 280-285, 289-331, 379-396, 399-431, 434-459, 565-568
* `escnn/group/groups/so3group.py`: 74, 108-133, 141-148, 248-266, 327-536, 559-561, 582-650, 662-665, 704-707, 796-803, 815-826, 829-868, 880-886, 889-897, 926-930, 947-974, 979-1001, 1004-1017, 1022-1054, 1057-1078
* `escnn/kernels/sparse_basis.py`: 15-130, 135-246
* `escnn/kernels/steerable_basis.py`: 53-111, 170-330, 350-385, 431-575
* `escnn/kernels/steerable_filters_basis.py`: 67-81, 131-204, 259, 278-346
* `escnn/nn/modules/nonlinearities/tensor.py`: 58-100, 115-145, 162-206
* `escnn/group/groups/utils.py`, `escnn/group/utils.py`, `escnn/gspaces/utils.py`, `escnn/nn/modules/utils.py`: 6-78
* `escnn/nn/modules/nonlinearities/vectorfield.py`: 20-96
* `escnn/kernels/wignereckart_solver.py`: 22-89, 110-128, 138-205, 208-220, 248-366, 386-398, 408-502, 505-517

## Axioms of each theorem

Output of `#print axioms` for the theorems listed in MANIFEST.json, grouped by the set of axioms.

* no axioms: `Escnn.C22_memo`, `Escnn.C22_by_id`, `Escnn.Seq.C30_outShape`, `Escnn.PyId.C64_stored`, `Escnn.C93_diagonal_id`
* Classical.choice, Quot.sound, propext: `Escnn.Cyclic.C01_cyclic_group_laws`, `Escnn.Cyclic.C01_cyclic_iso_zmod`, `Escnn.Cyclic.C01_cyclic_generators`, `Escnn.Cyclic.C01_cyclic_equal`, `Escnn.Cyclic.C01_cyclic_grid`, `Escnn.Dihedral.C02_dihedral_group_laws`, `Escnn.Dihedral.C02_dihedral_iso_mathlib`, `Escnn.Dihedral.C02_dihedral_generators`, `Escnn.Dihedral.C02_dihedral_equal`, `Escnn.SO2.C03_so2_laws`, `Escnn.SO2.C03_so2_iso_angle`, `Escnn.O2.C03_o2_iso_matrix`, `Escnn.O2.C03_o2_laws`, `Escnn.C04_cyclic_dihedral`, `Escnn.C04_left_nested`, `Escnn.C04_right_nested_violated`, `Escnn.Cyclic.C04_subgroup_partial`, `Escnn.Cyclic.C04_subgroup_intended`, `Escnn.Cyclic.C04_subgroup_violated'`, `Escnn.Cyclic.C04_sides`, `Escnn.Cyclic.C05_cyclic_subgroup`, `Escnn.Dihedral.C06_dihedral_subgroup_partial`, `Escnn.Dihedral.C06_dihedral_subgroup_iff`, `Escnn.Dihedral.C06_violated`, `Escnn.SO2.C07_so2_cyclic`, `Escnn.SO2.C07_so2_child_tolerance`, `Escnn.SO2.C07_so2_child_raises`, `Escnn.O2.C07_o2_so2`, `Escnn.O2.C07_o2_cyclic`, `Escnn.O2.C07_o2_flip`, `Escnn.O2.C07_o2_self`, `Escnn.O2.C07_o2_dn_partial`, `Escnn.O2.C07_o2_dn_iff`, `Escnn.O2.C07_o2_dn_violated`, `Escnn.C08_cyclic`, `Escnn.Dihedral.C08_dihedral_rot`, `Escnn.Dihedral.C08_dihedral_flip`, `Escnn.Dihedral.C08_dihedral_dih`, `Escnn.O2.C08_o2_rot`, `Escnn.O2.C08_o2_so2`, `Escnn.O2.C08_o2_flip`, `Escnn.O2.C08_o2_dih`, `Escnn.O2.C08_o2_self_partial`, `Escnn.O2.C08_o2_self_violated`, `Escnn.O2.C08_o2_drop_axis`, `Escnn.Cyclic.C09_cyclic_irrep`, `Escnn.Cyclic.C09_character_orthogonality`, `Escnn.Cyclic.C09_dimension_count`, `Escnn.Dihedral.C10_dihedral_irrep`, `Escnn.Dihedral.C10_character_orthogonality`, `Escnn.Dihedral.C10_dimension_count`, `Escnn.Dihedral.C10_ids`, `Escnn.C11_so2_irrep`, `Escnn.C11_o2_irrep`, `Escnn.C11_o2_characters_distinct`, `Escnn.Cyclic.C12_cyclic`, `Escnn.SO2.C12_so2`, `Escnn.Dihedral.C12_dihedral_rot`, `Escnn.Dihedral.C12_dihedral_flip`, `Escnn.Dihedral.C12_dihedral_dih`, `Escnn.O2.C12_o2_so2`, `Escnn.O2.C12_o2_rot`, `Escnn.O2.C12_o2_flip`, `Escnn.O2.C12_o2_self`, `Escnn.O2.C12_o2_dih`, `Escnn.C13_restrict`, `Escnn.C13_cyclic`, `Escnn.C13_dihedral_rot`, `Escnn.C13_dihedral_flip`, `Escnn.C13_dihedral_dih`, `Escnn.C13_so2`, `Escnn.C13_o2_so2`, `Escnn.C13_o2_rot`, `Escnn.C13_o2_flip`, `Escnn.C13_o2_dih`, `Escnn.C13_o2_self`, `Escnn.C14_wf_is_representation`, `Escnn.C14_constructor`, `Escnn.C14_constructor_rejects`, `Escnn.C14_constructor_size_violated`, `Escnn.C14_directsum`, `Escnn.C14_directsum_plain`, `Escnn.C14_directsum_rejects`, `Escnn.C14_change_basis`, `Escnn.Cyclic.C15_cyclic`, `Escnn.SO2.C15_so2`, `Escnn.C16_regular_sound`, `Escnn.C16_regular_partial`, `Escnn.Cyclic.C16_cyclic`, `Escnn.Dihedral.C16_dihedral`, `Escnn.C17_induced_sound`, `Escnn.C17_induced_finite`, `Escnn.C17_quotient_permutes`, `Escnn.Cyclic.inducedData`, `Escnn.C18_endo_orthogonal`, `Escnn.Cyclic.C18_cyclic`, `Escnn.SO2.C18_so2`, `Escnn.Dihedral.C18_dihedral`, `Escnn.O2.C18_o2`, `Escnn.C18_real_type`, `Escnn.C18_homomorphism_space`, `Escnn.C18_quaternions`, `Escnn.C19_disentangle`, `Escnn.C20_generators_complete`, `Escnn.C20_generators_sound`, `Escnn.C20_generators_unique`, `Escnn.C21_cyclic_partial`, `Escnn.C21_cyclic_mat_exact`, `Escnn.C21_cyclic_violated`, `Escnn.C21_dihedral_partial`, `Escnn.C21_dihedral_violated`, `Escnn.C21_so2`, `Escnn.C21_o2`, `Escnn.C21_mat_faithful`, `Escnn.C22_cyclic_quotient_partial`, `Escnn.C22_representatives_violated`, `Escnn.C22_kernel_basis_partial`, `Escnn.C22_names_violated`, `Escnn.FType.C23_fields`, `Escnn.FType.C23_partition`, `Escnn.FType.C23_add`, `Escnn.FType.C23_index_select`, `Escnn.FType.C24_sorted`, `Escnn.FType.C24_group_by_labels`, `Escnn.FType.C24_labels_partition`, `Escnn.FType.C24_restrict_violated`, `Escnn.C25_fieldwise`, `Escnn.C25_action`, `Escnn.C25_representation`, `Escnn.GTensor.C26_split`, `Escnn.GTensor.C26_directsum_rejects`, `Escnn.GTensor.C26_split_default_violated`, `Escnn.GTensor.C26_split_mutates_violated`, `Escnn.GTensor.C26_getitem_partial`, `Escnn.GTensor.C26_getitem_violated`, `Escnn.GTensor.C26_slice_clamp_violated`, `Escnn.GTensor.C27_add`, `Escnn.GTensor.C27_sub`, `Escnn.GTensor.C27_mul`, `Escnn.GTensor.C27_rejects`, `Escnn.GTensor.C27_inplace`, `Escnn.C28_reshuffle`, `Escnn.C28_branching`, `Escnn.C28_merge`, `Escnn.C28_multiple`, `Escnn.C28_reshuffle_equivariant`, `Escnn.C28_branching_equivariant`, `Escnn.C28_multiple_equivariant`, `Escnn.C28_merge_tuple_first`, `Escnn.C29_indexes`, `Escnn.C29_slice`, `Escnn.checkConsecutive_iff`, `Escnn.C29_repeated_violated`, `Escnn.Seq.C30_init`, `Escnn.Seq.C30_forward`, `Escnn.Seq.C30_composition`, `Escnn.Seq.C30_equivariant`, `Escnn.Seq.C30_index`, `Escnn.Seq.C30_slice`, `Escnn.Seq.C30_append`, `Escnn.Seq.C30_append_partial`, `Escnn.Seq.C30_append_violated`, `Escnn.C31_restriction_partial`, `Escnn.C31_restrict_representation`, `Escnn.C31_disentangle_spec`, `Escnn.C31_disentangle_partial`, `Escnn.C31_disentangle_violated`, `Escnn.Blocks.C32_weight_ranges`, `Escnn.Blocks.C32_sorted`, `Escnn.Blocks.C32_set_order`, `Escnn.Sampler.C32_sorted`, `Escnn.C33_block`, `Escnn.Blocks.C33_weight_info_partial`, `Escnn.Sampler.C33_sampler_info_partial`, `Escnn.Blocks.C33_violated_names`, `Escnn.Blocks.C34_filter_partial`, `Escnn.Blocks.C34_equivariant_partial`, `Escnn.Blocks.C34_wrong_length`, `Escnn.Blocks.C34_violated_empty`, `Escnn.Blocks.C34_violated_names`, `Escnn.WE.C35_wigner_eckart`, `Escnn.WE.C35_so2`, `Escnn.WE.C35_cyclic`, `Escnn.RWE.C36_restricted`, `Escnn.RWE.C36_from_group`, `Escnn.RWE.C36_so2_cyclic`, `Escnn.WE.C37_wigner_eckart`, `Escnn.RWE.C37_restricted`, `Escnn.SKB.C37_steerable`, `Escnn.SKB.C37_steerable_so2`, `Escnn.Union.C37_union`, `Escnn.Sparse.C37_sparse`, `Escnn.Sparse.C37_sparse_attrs`, `Escnn.C37_point`, `Escnn.C37_point_total`, `Escnn.Sparse.C37_sparse_scale`, `Escnn.Sparse.C37_sparse_weight`, `Escnn.SKB.C38_steerable_kernel_basis`, `Escnn.SKB.C38_wigner_eckart`, `Escnn.SKB.C38_so2`, `Escnn.SKB.C38_cyclic`, `Escnn.SKB.C38_restricted`, `Escnn.C39_action`, `Escnn.C39_circular_harmonics`, `Escnn.C39_origin`, `Escnn.C39_steerable`, `Escnn.Shells.C40_iter`, `Escnn.Shells.C40_steerable`, `Escnn.Shells.C40_steerable_iter_partial`, `Escnn.Shells.C40_steerable_attrs_partial`, `Escnn.Shells.C40_getitem_spherical`, `Escnn.Bias.C41_invariant`, `Escnn.Bias.C41_complete`, `Escnn.C41_so2`, `Escnn.C41_o2`, `Escnn.C41_cyclic`, `Escnn.C41_dihedral`, `Escnn.Linear.C42_equivariant_partial`, `Escnn.C42_so2_partial`, `Escnn.C42_cyclic_partial`, `Escnn.Linear.C42_violated_empty`, `Escnn.C43_grid`, `Escnn.C43_conv`, `Escnn.RdConv.C43_module`, `Escnn.RdConv.C43_plane`, `Escnn.RdConv.C43_cyclic`, `Escnn.RdConv.C43_dihedral`, `Escnn.NdArr.C44_pixels`, `Escnn.NdArr.C44_action`, `Escnn.NdArr.C44_exact`, `Escnn.O2.signedPerm`, `Escnn.Cyclic.signedPerm`, `Escnn.Dihedral.signedPerm`, `Escnn.C45_linear_model`, `Escnn.RdConv.C46_conv_partial`, `Escnn.RdConv.C46_conv_trained_partial`, `Escnn.RdConv.C46_circular_violated`, `Escnn.RdConvT.C46_transposed_partial`, `Escnn.RdConvT.C46_output_padding_violated`, `Escnn.PointwisePool.C46_maxpool_partial`, `Escnn.PointwisePool.C46_ceil_iff`, `Escnn.C46_ceil_violated`, `Escnn.AdaptivePool.C46_adaptive_max`, `Escnn.AdaptivePool.C46_adaptive_avg`, `Escnn.Linear.C46_linear`, `Escnn.PointwiseNL.C46_pointwise`, `Escnn.PoolMap.C46_gpool`, `Escnn.IIDBatchNorm.C46_iid`, `Escnn.InnerBatchNorm.C46_inner_partial`, `Escnn.InnerBatchNorm.C46_inner_dim0_violated`, `Escnn.GNormBatchNorm.C46_gnorm_partial`, `Escnn.GNormBatchNorm.C46_gnorm_dims_violated`, `Escnn.Seq.C46_sequential`, `Escnn.Upsampling.C46_upsampling`, `Escnn.C46_identity`, `Escnn.C46_restriction`, `Escnn.C46_dropout`, `Escnn.RdConv.C47_conv`, `Escnn.RdConv.init_axes`, `Escnn.RdConv.C47_conv_tuple`, `Escnn.conv_tuple_violation`, `Escnn.RdConvT.C47_transposed`, `Escnn.RdConvT.init_axes`, `Escnn.RdConvT.C47_transposed_tuple`, `Escnn.PointwisePool.C47_maxpool_iff`, `Escnn.PointwisePool.C47_maxpool_partial`, `Escnn.ceil_violation`, `Escnn.PointwisePool.C47_avgpool_iff`, `Escnn.PointwisePool.C47_avgpool_partial`, `Escnn.AntialiasedPool.C47_antialiased_avg`, `Escnn.AntialiasedPool.forwardMax_shape`, `Escnn.AntialiasedPool.C47_antialiased_max_partial`, `Escnn.antialiased_violation`, `Escnn.AdaptivePool.C47_adaptive_max`, `Escnn.AdaptivePool.C47_adaptive_avg`, `Escnn.NormMaxPool.C47_normmax`, `Escnn.NormMaxPool.C47_normmax_raises`, `Escnn.normmax_violation`, `Escnn.Upsampling.C47_upsampling`, `Escnn.RdConv.C47_conv_padding`, `Escnn.RdConvT.C47_transposed_padding`, `Escnn.PointwiseNL.C48_equivariant`, `Escnn.PointwiseNL.C48_transform`, `Escnn.PointwiseNL.C48_init`, `Escnn.PointwiseNL.C48_init_type`, `Escnn.PointwiseNL.C48_modules`, `Escnn.PointwiseNL.C48_regular`, `Escnn.PointwiseNL.C48_quotient`, `Escnn.PointwiseNL.C48_necessary`, `Escnn.PointwiseNL.C48_not_permutation`, `Escnn.NormNL.C49_equivariant`, `Escnn.NormNL.C49_rescales`, `Escnn.NormNL.C49_init`, `Escnn.GatedNL.C50_gates`, `Escnn.GatedNL.C50_equivariant`, `Escnn.GatedNL.C50_init`, `Escnn.GatedNL.C50_default`, `Escnn.GatedNL2.C50_two_inputs`, `Escnn.GatedUniform.C50_uniform`, `Escnn.InducedNormNL.C51_equivariant`, `Escnn.InducedNormNL.C51_rescales`, `Escnn.PoolMap.C51_pool_values`, `Escnn.PoolMap.C51_pool`, `Escnn.InducedGated.C51_gated`, `Escnn.C51_subSize`, `Escnn.C51_flags`, `Escnn.C51_gated_subgroups_violated`, `Escnn.C52_accepts`, `Escnn.C52_only_signed`, `Escnn.C52_perm`, `Escnn.C52_representation`, `Escnn.ConcatNL.C52_equivariant`, `Escnn.ConcatNL.C52_init`, `Escnn.ConcatNL.C52_transform`, `Escnn.Fourier.C53_equivariant`, `Escnn.Fourier.C53_init`, `Escnn.Fourier.C53_regular_init`, `Escnn.Fourier.C53_incomplete_grid`, `Escnn.VectorField.C54_init`, `Escnn.VectorField.C54_values`, `Escnn.VectorField.C54_equivariant_partial`, `Escnn.VectorField.C54_two_violated`, `Escnn.VectorField.C54_ties_violated`, `Escnn.PoolMap.C55_gpool`, `Escnn.PoolMap.C55_norm`, `Escnn.PoolMap.C55_gpool_values`, `Escnn.PoolMap.C55_norm_values`, `Escnn.PoolMap.C55_init`, `Escnn.C55_norm_not_orthogonal_violated`, `Escnn.IIDBatchNorm.C56_iid_partial`, `Escnn.IIDBatchNorm.C56_iid_not_orthogonal_violated`, `Escnn.NormBatchNorm.C56_norm_partial`, `Escnn.NormBatchNorm.C56_norm_not_orthogonal_violated`, `Escnn.InnerBatchNorm.C56_inner_partial`, `Escnn.InnerBatchNorm.C56_inner_dim0_violated`, `Escnn.GNormBatchNorm.C56_gnorm_partial`, `Escnn.GNormBatchNorm.C56_gnorm_axes_violated`, `Escnn.FieldNorm.C57_equivariant_partial`, `Escnn.FieldNorm.C57_values`, `Escnn.FieldNorm.C57_not_orthogonal_violated`, `Escnn.FieldDropout.C58_init`, `Escnn.FieldDropout.C58_factor_partial`, `Escnn.FieldDropout.C58_eval`, `Escnn.FieldDropout.C58_inplace_partial`, `Escnn.FieldDropout.C58_equivariant`, `Escnn.FieldDropout.C58_inplace_violated`, `Escnn.PointDropout.C58_pointwise`, `Escnn.PointwisePool.C59_max_value`, `Escnn.PointwisePool.C59_max`, `Escnn.PointwisePool.C59_avg`, `Escnn.AntialiasedPool.C59_max`, `Escnn.AntialiasedPool.C59_avg`, `Escnn.AdaptivePool.C59_max`, `Escnn.AdaptivePool.C59_avg`, `Escnn.NormMaxPool.C59_picks`, `Escnn.NormMaxPool.C59_norm`, `Escnn.C60_mask`, `Escnn.C60_equivariant`, `Escnn.C61_homomorphism`, `Escnn.C61_character`, `Escnn.C61_decomposition_partial`, `Escnn.C61_types`, `Escnn.C61_irreducible`, `Escnn.C61_inequivalent`, `Escnn.C61_so2_so2`, `Escnn.C61_quaternionic_violation`, `Escnn.C61_real_quaternionic`, `Escnn.Sampler.C62_orders_agree`, `Escnn.Sampler.C62_groups_violation`, `Escnn.Sampler.C62_dot_violation`, `Escnn.He.C63_variances_partial`, `Escnn.He.C63_weight_variance`, `Escnn.He.C63_blocks`, `Escnn.He.C63_fields_violation`, `Escnn.C64_cyclic`, `Escnn.C64_dihedral`, `Escnn.C64_octahedral`, `Escnn.C64_icosahedral`, `Escnn.C64_so2_symm_violated`, `Escnn.C64_so2_hash_violated`, `Escnn.PyId.C64_subgroup_id`, `Escnn.PyId.C64_product_subgroup_id_partial`, `Escnn.PyId.C64_nested_id_violated`, `Escnn.PyId.C64_empty_id_violated`, `Escnn.C64_irrep_name_violated`, `Escnn.C64_irrep_ids`, `Escnn.C65_subgroup`, `Escnn.C65_so2`, `Escnn.C65_cyclic`, `Escnn.C65_dihedral`, `Escnn.C65_o2`, `Escnn.C66_mask`, `Escnn.C66_reuse`, `Escnn.C66_subgroup_partial`, `Escnn.C66_o2_partial`, `Escnn.C66_axis_violated`, `Escnn.TensorRep.C67_tensor`, `Escnn.TensorRep.C67_flags_partial`, `Escnn.TensorRep.C67_cyclic`, `Escnn.TensorRep.C67_so2`, `Escnn.TensorRep.C67_norm_violated`, `Escnn.TensorProduct.C68_tensor_product`, `Escnn.TensorProduct.C68_cyclic`, `Escnn.TensorProduct.C68_so2`, `Escnn.TensorProduct.C68_init`, `Escnn.TensorProduct.C68_train`, `Escnn.SKB.C69_of_gen`, `Escnn.SKB.C69_wigner_eckart`, `Escnn.SKB.C69_so2`, `Escnn.SKB.C69_cyclic`, `Escnn.SKB.C69_point`, `Escnn.C69_subgroup`, `Escnn.C69_plane_so2`, `Escnn.C69_plane_cyclic`, `Escnn.circular_independent`, `Escnn.SO2.schur`, `Escnn.Cyclic.schur`, `Escnn.SKB.C70_wigner_eckart`, `Escnn.SKB.C70_so2`, `Escnn.SKB.C70_cyclic`, `Escnn.SKB.C70_point`, `Escnn.C70_subgroup`, `Escnn.C70_plane_so2`, `Escnn.C70_plane_cyclic`, `Escnn.KernelsIndependent.unique`, `Escnn.Upsampling.C71_init`, `Escnn.Upsampling.C71_scale`, `Escnn.Upsampling.C71_size`, `Escnn.Upsampling.C71_nearest_iff`, `Escnn.Upsampling.C71_nearest_violated`, `Escnn.Upsampling.C71_align_violated`, `Escnn.PointwisePool.C72_max`, `Escnn.PointwisePool.C72_avg`, `Escnn.AdaptivePool.C72_max`, `Escnn.AdaptivePool.C72_avg`, `Escnn.AntialiasedPool.C72_avg`, `Escnn.AntialiasedPool.C72_max`, `Escnn.NormMaxPool.C72_norm`, `Escnn.PointwisePool.C72_max_iff`, `Escnn.PointwisePool.C72_stride_violated`, `Escnn.C73_conv`, `Escnn.RdConvT.C73_module`, `Escnn.RdConvT.C73_cyclic`, `Escnn.RdConvT.C73_output_padding_violated`, `Escnn.PointConv.C74_module`, `Escnn.PointConv.C74_groups`, `Escnn.PointConv.C74_so2`, `Escnn.PointConv.C74_cyclic`, `Escnn.PointConv.C74_value`, `Escnn.PointConv.C74_edge_order`, `Escnn.PointConv.C74_relabel`, `Escnn.PointConv.C74_translation`, `Escnn.PointConv.C74_no_edges_violated`, `Escnn.PointConv.C74_shape_violated`, `Escnn.SO3.C75_group`, `Escnn.SO3.C75_cyclic`, `Escnn.SO3.C75_so2`, `Escnn.SO3.C75_dihedral`, `Escnn.SO3.C75_o2`, `Escnn.SO3.C75_self`, `Escnn.SO3.C75_plato`, `Escnn.SO3.C75_ids`, `Escnn.SO3.C75_rejects`, `Escnn.O3.C76_group`, `Escnn.O3.C76_cyclic`, `Escnn.O3.C76_so2`, `Escnn.O3.C76_dihedral`, `Escnn.O3.C76_o2`, `Escnn.O3.C76_cylinder_discrete`, `Escnn.O3.C76_cylinder`, `Escnn.O3.C76_fullcylinder_discrete`, `Escnn.O3.C76_fullcylinder`, `Escnn.O3.C76_pyramid`, `Escnn.O3.C76_cone`, `Escnn.O3.C76_mirror`, `Escnn.O3.C76_inversion`, `Escnn.O3.C76_so3`, `Escnn.O3.C76_self`, `Escnn.O3.C76_plato`, `Escnn.O3.C76_fullplato`, `Escnn.O3.C76_ids`, `Escnn.O3.C76_rejects`, `Escnn.O3.C76_cone_axis_violated`, `Escnn.SO3.C77_self`, `Escnn.SO3.C77_so2`, `Escnn.SO3.C77_cyclic`, `Escnn.SO3.C77_o2`, `Escnn.SO3.C77_dihedral`, `Escnn.C77_pole`, `Escnn.SO3.C77_ico_self`, `Escnn.SO3.C77_ico_cyclic_partial`, `Escnn.SO3.C77_ico_violated`, `Escnn.SO3.C77_octa_violated`, `Escnn.O3.C77_self`, `Escnn.O3.C77_so3`, `Escnn.O3.C77_cone_partial`, `Escnn.O3.C77_pyramid_partial`, `Escnn.O3.C77_cone_violated`, `Escnn.O3.C77_cone_rotations_violated`, `Escnn.O3.C77_mirror_violated`, `Escnn.O3.C77_rotations_violated`, `Escnn.O3.C77_cylinder_violated`, `Escnn.O3.C77_inversion_violated`, `Escnn.GSpace3D.C78_whole`, `Escnn.GSpace3D.C78_solids`, `Escnn.GSpace3D.C78_rot2d`, `Escnn.GSpace3D.C78_dihedral`, `Escnn.GSpace3D.C78_conical`, `Escnn.GSpace3D.C78_fullCylindrical`, `Escnn.GSpace3D.C78_cylindrical`, `Escnn.GSpace3D.C78_rejects`, `Escnn.GSpace3D.C78_axis_violated`, `Escnn.SO3.C79_so3_rep`, `Escnn.SO3.C79_so3_self`, `Escnn.SO3.C79_so3_so2`, `Escnn.SO3.C79_so3_o2`, `Escnn.SO3.C79_so3_cyclic`, `Escnn.SO3.C79_so3_dihedral`, `Escnn.SO3.C79_so3_standard`, `Escnn.O3.C79_o3_rep`, `Escnn.O3.C79_o3_self`, `Escnn.O3.C79_o3_so3`, `Escnn.O3.C79_o3_inversion`, `Escnn.O3.C79_o3_so2`, `Escnn.O3.C79_o3_o2`, `Escnn.O3.C79_o3_cyclic`, `Escnn.O3.C79_o3_dihedral`, `Escnn.O3.C79_o3_cone`, `Escnn.O3.C79_o3_standard`, `Escnn.SO3.C80_so3_character`, `Escnn.SO3.C80_so3_tensor`, `Escnn.SO3.C80_so3_regular`, `Escnn.O3.C80_o3_character`, `Escnn.O3.C80_o3_tensor`, `Escnn.O3.C80_o3_regular`, `Escnn.C81_harmonics`, `Escnn.C81_steerable`, `Escnn.C81_o3`, `Escnn.C81_subgroup`, `Escnn.C81_so3_subgroup`, `Escnn.C81_so3`, `Escnn.C81_so2`, `Escnn.C81_cyclic`, `Escnn.C81_inversion`, `Escnn.C81_o2_dihedral`, `Escnn.C81_dihedral`, `Escnn.C81_cone`, `Escnn.C81_dispatch`, `Escnn.C81_maximum_frequency_violated`, `Escnn.C81_entries_injective`, `Escnn.O3.C81_o3_coefficients`, `Escnn.C82_basis`, `Escnn.C82_complete_basis`, `Escnn.C82_kernel_length`, `Escnn.Sparse.C82_sparse_steerable`, `Escnn.Sparse.C82_sparse_default`, `Escnn.Sparse.C82_sparse_commuting`, `Escnn.Sparse.C82_stabilizer`, `Escnn.Sparse.C82_sparse_accepts`, `Escnn.Sparse.C82_change_of_basis_violated`, `Escnn.C83_sylvester`, `Escnn.C83_multiplicities`, `Escnn.C83_finite_sound`, `Escnn.C83_finite_exact`, `Escnn.C83_build_sound`, `Escnn.C83_build_exact`, `Escnn.C83_cyclic`, `Escnn.C83_dihedral`, `Escnn.C83_restrict`, `Escnn.C83_general_partial`, `Escnn.C83_trivial_group_violated`, `Escnn.C84_sound`, `Escnn.C84_decomposition`, `Escnn.C84_real`, `Escnn.C84_exact`, `Escnn.C84_dihedral`, `Escnn.C84_dihedral_trivial`, `Escnn.Octa.C85_group`, `Escnn.Octa.C85_is_element`, `Escnn.Octa.C85_stored`, `Escnn.Octa.C85_lawful`, `Escnn.Octa.C85_in_so3`, `Escnn.Octa.C85_irreps`, `Escnn.Octa.C85_build_errors`, `Escnn.Octa.C85_complete`, `Escnn.Octa.C85_clebsch_gordan`, `Escnn.Octa.C85_standard`, `Escnn.Octa.C85_cyclic`, `Escnn.Octa.C85_child_partial`, `Escnn.Octa.C85_child_violation`, `Escnn.Octa.C85_vertices_faces`, `Escnn.Octa.C85_edges_violation`, `Escnn.Octa.C85_restrict_trivial_violation`, `Escnn.Octa.C85_id_errors`, `Escnn.Octa.C85_trivial_whole`, `Escnn.Octa.C85_restrict`, `Escnn.Octa.C85_restrict_whole`, `Escnn.Octa.C85_axis_aligned`, `Escnn.BasisParams.C86_conv`, `Escnn.BasisParams.C86_point`, `Escnn.BasisParams.C86_default_rings`, `Escnn.BasisParams.C86_defaults_accepted`, `Escnn.BasisParams.C86_sigma`, `Escnn.BasisParams.C86_cutoffs`, `Escnn.BasisParams.C86_policies`, `Escnn.BasisParams.C86_dilation_violation`, `Escnn.BasisParams.C86_dilation3_violation`, `Escnn.BasisParams.C86_policy_values`, `Escnn.Sphere.C87_healpix`, `Escnn.Sphere.C87_fibonacci`, `Escnn.Sphere.C87_fibonacci_violation`, `Escnn.Sphere.C87_longlat`, `Escnn.Sphere.C87_so3_sphere_violation`, `Escnn.Sphere.C87_so3_sphere_total`, `Escnn.Sphere.C87_o3_sphere`, `Escnn.Sphere.C87_pole2point`, `Escnn.C88_so2`, `Escnn.C88_o2`, `Escnn.C88_dihedral`, `Escnn.C88_product`, `Escnn.C88_random`, `Escnn.C88_quadrature`, `Escnn.Fourier.C88_sampling`, `Escnn.Fourier.C88_aliasing`, `Escnn.Fourier.C88_fourier`, `Escnn.Ico.C89_group`, `Escnn.Ico.C89_generators`, `Escnn.Ico.C89_irreps`, `Escnn.Ico.C89_build_errors`, `Escnn.Ico.C89_complete`, `Escnn.Ico.C89_clebsch_gordan`, `Escnn.Ico.C89_bl_irreps`, `Escnn.Ico.C89_standard`, `Escnn.Ico.C89_is_element`, `Escnn.Ico.C89_lawful`, `Escnn.Ico.C89_in_so3`, `Escnn.Ico.C90_cyclic`, `Escnn.Ico.C90_child_partial`, `Escnn.Ico.C90_child_violation`, `Escnn.Ico.C90_trivial_whole`, `Escnn.Ico.C90_flip`, `Escnn.Ico.C90_id_errors`, `Escnn.Ico.C90_vertices_faces_edges`, `Escnn.Ico.C90_restrict`, `Escnn.Ico.C90_restrict_trivial_whole`, `Escnn.DeltaInit.C91_zero`, `Escnn.DeltaInit.C91_columns`, `Escnn.DeltaInit.C91_rows`, `Escnn.DeltaInit.C91_success`, `Escnn.DeltaInit.C91_single`, `Escnn.Thomson.C92_result`, `Escnn.Thomson.C92_unit`, `Escnn.Thomson.C92_best`, `Escnn.Thomson.C92_empty`, `Escnn.Thomson.C92_optimizer`, `Escnn.Thomson.C92_distance_so3`, `Escnn.Thomson.C92_cpu_violation`, `Escnn.Thomson.C92_attempts`, `Escnn.Thomson.C92_cube_sphere`, `Escnn.Thomson.C92_quaternion_basis`, `Escnn.Thomson.C92_cube_so3`, `Escnn.Thomson.C92_separated`, `Escnn.Thomson.C92_bound`, `Escnn.C93_diagonal`, `Escnn.C93_diagonal_planar`, `Escnn.C94_so2`, `Escnn.C94_cyclic`, `Escnn.C94_o2`, `Escnn.C94_dihedral`, `Escnn.C94_o3`, `Escnn.C94_regular`
* Quot.sound, propext: `Escnn.C04_product_laws_partial`, `Escnn.C04_param_names`, `Escnn.C17_default_representatives`, `Escnn.C22_history_dependence`, `Escnn.FType.C23_irreps`, `Escnn.FType.C24_restrict_partial`, `Escnn.GTensor.C26_ellipsis`, `Escnn.C28_reshuffle_repeated`, `Escnn.Shells.C40_violated_getitem_circular`, `Escnn.Shells.C40_violated_steerable_attrs`, `Escnn.Layer.C45_violated_update`, `Escnn.Layer.C45_violated_eval_again`, `Escnn.Octa.C85_generators`
* propext: `Escnn.C04_inclusions_partial`, `Escnn.Cyclic.C04_subgroup_violated`, `Escnn.C04_left`, `Escnn.C04_right`, `Escnn.Cyclic.C05_rejects`, `Escnn.C29_indexes_rejects`, `Escnn.Shells.C40_violated_filter`, `Escnn.Shells.C40_violated_radial`, `Escnn.Layer.C45_current_partial`, `Escnn.Layer.C45_linear_eval`, `Escnn.Layer.C45_conv_eval`, `Escnn.Layer.C45_training`, `Escnn.Layer.C45_violated_load`, `Escnn.Layer.C45_training_dict`, `Escnn.C64_product`, `Escnn.C64_elements`, `Escnn.C64_irrep_id`
