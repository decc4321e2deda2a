{"id": "C01", "title": "Cyclic group elements form a group and are enumerated exactly once", "statement": "For `G = cyclic_group(N)`, `@` is closed on valid elements, associative, `identity` is neutral, `~g` is the two-sided inverse, and `G.elements` lists every valid element exactly once with `len(G.elements) == G.order() == N`.", "quantifier": "every N >= 1 and every triple of elements", "why_tests_cant": "the test-suite samples a handful of N; the law is needed for every order", "anchors": ["escnn/group/groups/cyclicgroup.py: CyclicGroup._inverse,_combine,_is_element,__init__"]}
{"id": "C02", "title": "Dihedral group elements form a group and are enumerated exactly once", "statement": "For `G = dihedral_group(N)`, `@` is closed, associative, with identity and two-sided inverse `~g`; `G.elements` (rotations then reflections) lists every valid element once and has length 2N; the generators reach every element.", "quantifier": "every N >= 1 and every triple of elements", "why_tests_cant": "only a few N are enumerated by tests; the semidirect sign rule must hold for every rotation and flip", "anchors": ["escnn/group/groups/dihedralgroup.py: DihedralGroup._inverse,_combine,_is_element,__init__"]}
{"id": "C03", "title": "SO(2) and O(2) composition and inversion satisfy the group laws", "statement": "Composition and inversion of `so2_group()` / `o2_group()` elements respect equality of angles modulo 2*pi and satisfy associativity, identity and inverse laws; flip parity is additive.", "quantifier": "every real angle (any representative modulo 2*pi) and every flip", "why_tests_cant": "the element set is uncountable, tests only sample it", "anchors": ["escnn/group/groups/so2group.py: SO2._combine,_inverse", "escnn/group/groups/o2group.py: O2._combine,_inverse"]}
{"id": "C04", "title": "Direct products are groups acting componentwise", "statement": "`direct_product(G1, G2)` satisfies the group laws whenever both factors do, both embeddings and projections are homomorphisms, and `elements` enumerates all pairs exactly once.", "quantifier": "every pair of groups and every pair of elements", "why_tests_cant": "quantifies over all factor groups", "anchors": ["escnn/group/directproduct.py: DirectProductGroup._combine,_inverse,elements,inclusion1,inclusion2"]}
{"id": "C05", "title": "Cyclic subgroups: inclusion and restriction are mutually inverse homomorphisms", "statement": "`cyclic_group(N).subgroup(M)` returns `(C_M, parent, child)` with `parent` an injective homomorphism, `child(parent(h)) == h`, and `child(g) is None` exactly when `g` is not in the image of `parent`.", "quantifier": "every N, every divisor M of N, every element of both groups", "why_tests_cant": "all pairs (N, M) cannot be tested", "anchors": ["escnn/group/groups/cyclicgroup.py: CyclicGroup._subgroup", "escnn/group/groups/utils.py"]}
{"id": "C06", "title": "Dihedral subgroups: inclusion and restriction are mutually inverse homomorphisms", "statement": "For every accepted subgroup id `(axis, M)` of `dihedral_group(N)` the returned `parent` map is an injective homomorphism into the group, `child(parent(h)) == h`, and `child(g) is None` exactly off the image.", "quantifier": "every N, every accepted (axis, M), every element", "why_tests_cant": "the id space grows with N; off-range axes are accepted but never tested", "anchors": ["escnn/group/groups/dihedralgroup.py: DihedralGroup._subgroup, dn_to_cn, cn_to_dn, dn_to_flip, flip_to_dn, dn_to_dm, dm_to_dn"]}
{"id": "C07", "title": "O(2)/SO(2) subgroup maps are mutually inverse homomorphisms", "statement": "For each subgroup id of `so2_group` and `o2_group`, the inclusion is an injective homomorphism and restriction inverts it on the image.", "quantifier": "every order, every axis, every element", "why_tests_cant": "continuous axis parameter and unbounded order", "anchors": ["escnn/group/groups/so2group.py: SO2._subgroup", "escnn/group/groups/o2group.py: O2._subgroup, o2_to_dn, dn_to_o2, o2_to_cn"]}
{"id": "C08", "title": "Composing subgroup ids composes inclusions", "statement": "`G._combine_subgroups(id1, id2)` (used by `restrict` chains of gspaces, field types and representations) identifies the subgroup obtained by taking subgroup `id2` of the subgroup `id1`: the combined inclusion equals the composition of the two inclusions.", "quantifier": "every pair of composable subgroup ids of C_N, D_N and O(2)", "why_tests_cant": "quadratically many ids for every N", "anchors": ["escnn/group/groups/cyclicgroup.py: _combine_subgroups", "escnn/group/groups/dihedralgroup.py: _combine_subgroups", "escnn/group/groups/o2group.py: _combine_subgroups"]}
{"id": "C09", "title": "Cyclic irreps are orthogonal homomorphisms with the advertised character, type and total dimension", "statement": "For each frequency k with 0 <= k <= N//2, `cyclic_group(N).irrep(k)` is an orthogonal-matrix homomorphism whose `character` equals the trace; for `irreps()` sum over irreps of size^2 / sum_of_squares equals the group order.", "quantifier": "every N, every k, every pair of elements", "why_tests_cant": "tests evaluate a few (N,k) numerically up to tolerance", "anchors": ["escnn/group/groups/cyclicgroup.py: CyclicGroup.irrep", "escnn/group/utils.py: psi"]}
{"id": "C10", "title": "Dihedral irreps are orthogonal homomorphisms with the advertised character and total dimension", "statement": "For each accepted (j,k), `dihedral_group(N).irrep(j,k)` is an orthogonal homomorphism, character = trace, and the dimension count sum size^2 = 2N holds.", "quantifier": "every N, every accepted (j,k), every pair of elements", "why_tests_cant": "tests evaluate a few (N,j,k) numerically", "anchors": ["escnn/group/groups/dihedralgroup.py: DihedralGroup.irrep, _build_irrep_dn, _build_char_dn", "escnn/group/utils.py: psi, chi, psichi"]}
{"id": "C11", "title": "SO(2) and O(2) irreps are orthogonal homomorphisms with the advertised character", "statement": "`so2_group().irrep(k)` and `o2_group().irrep(j,k)` are orthogonal homomorphisms, depend only on the angle modulo 2*pi, and `character` equals the trace.", "quantifier": "every frequency and every angle", "why_tests_cant": "uncountable group, unbounded frequency", "anchors": ["escnn/group/groups/so2group.py: SO2.irrep", "escnn/group/groups/o2group.py: O2.irrep"]}
{"id": "C12", "title": "Restricting an irrep of C_N, D_N, SO(2), O(2) gives a correct change of basis and irrep list", "statement": "`G._restrict_irrep(irrep, id)` returns an orthogonal matrix Q and list of subgroup irreps with `irrep(parent(h)) == Q @ blockdiag(irreps)(h) @ Q.T` for each h of the subgroup.", "quantifier": "every group order, frequency, subgroup id and element", "why_tests_cant": "case analysis on frequency versus order (f > order/2, f == order/2) has corner cases tests miss", "anchors": ["escnn/group/groups/cyclicgroup.py: _restrict_irrep", "escnn/group/groups/dihedralgroup.py: _restrict_irrep", "escnn/group/groups/so2group.py: _restrict_irrep", "escnn/group/groups/o2group.py: _restrict_irrep"]}
{"id": "C13", "title": "Restricting a representation is composition with the inclusion", "statement": "`rho.restrict(id)(h) == rho(parent(h))` for every representation built by the library, and restriction preserves size.", "quantifier": "every representation (list of irreps and change of basis) and every subgroup element", "why_tests_cant": "ranges over all changes of basis", "anchors": ["escnn/group/group.py: Group.restrict_representation", "escnn/group/representation.py: Representation.restrict"]}
{"id": "C14", "title": "Direct sums and basis changes of representations are representations", "statement": "`directsum([r1,...,rn], Q)(g) == Q @ blockdiag(r1(g),...,rn(g)) @ inv(Q)`, it is a homomorphism, its `irreps` list is the concatenation, its size is the sum; `change_basis(rho, Q)(g) == Q rho(g) Q^-1`.", "quantifier": "every finite list of representations and every invertible Q", "why_tests_cant": "unbounded lists, arbitrary Q", "anchors": ["escnn/group/representation.py: directsum, change_basis, Representation.__init__"]}
{"id": "C15", "title": "Clebsch-Gordan coefficients of SO(2) and C_N intertwine the tensor product with its summands", "statement": "For `J, l` irreps and each summand `(j, m)` reported by `_tensor_product_irreps`, the array returned by `_clebsh_gordan_coeff` satisfies `(psi_J(g) (x) psi_l(g)) CG == CG psi_j(g)` for each of the m copies, has orthonormal columns, and the summand dimensions add up to size(J)*size(l).", "quantifier": "every pair of frequencies, every N, every group element", "why_tests_cant": "frequency arithmetic mod N has corner cases (J+l > N/2, l == J, N even)", "anchors": ["escnn/group/groups/so2group.py: SO2._clebsh_gordan_coeff,_tensor_product_irreps", "escnn/group/groups/cyclicgroup.py: CyclicGroup._clebsh_gordan_coeff,_tensor_product_irreps"]}
{"id": "C16", "title": "The regular representation permutes group elements and its change of basis block-diagonalises it", "statement": "`G.regular_representation(g)` is the permutation matrix of left multiplication in `G.elements` order (exactly one 1 in each row and column), a homomorphism, with character |G| at the identity and 0 elsewhere.", "quantifier": "every finite group and every pair of elements", "why_tests_cant": "all groups", "anchors": ["escnn/group/representation.py: build_regular_representation", "escnn/group/group.py: Group.regular_representation"]}
{"id": "C17", "title": "Quotient and induced representations act on cosets", "statement": "The representation of G induced from a subgroup representation is a homomorphism for any choice of coset representatives; induced from the trivial representation it is the permutation representation on cosets.", "quantifier": "every finite group, subgroup, representatives and subgroup representation", "why_tests_cant": "coset representatives are arbitrary data", "anchors": ["escnn/group/representation.py: build_induced_representation", "escnn/group/group.py: induced_representation, quotient_representation"]}
{"id": "C18", "title": "Endomorphism bases commute with their irrep and are orthogonal", "statement": "Each matrix of `irrep.endomorphism_basis()` commutes with `irrep(g)` for complex-type irreps of the rotation groups; the number of matrices equals `sum_of_squares_constituents`, and they are linearly independent and orthogonal.", "quantifier": "every irrep of type R, C, H and element", "why_tests_cant": "all frequencies and sizes", "anchors": ["escnn/group/irrep.py: IrreducibleRepresentation.endomorphism_basis", "escnn/group/representation.py: Representation.endomorphism_basis, homomorphism_space"]}
{"id": "C19", "title": "disentangle returns an equivalent block-diagonal representation", "statement": "`disentangle(rho)` returns a permutation matrix P and representations r_1..r_n such that `P rho(g) P^T == blockdiag(r_i(g))`, and the irreps of the r_i together are those of rho.", "quantifier": "every representation", "why_tests_cant": "depends on the zero pattern of an arbitrary change of basis", "anchors": ["escnn/group/representation.py: disentangle", "escnn/nn/modules/disentangle_module.py: DisentangleModule"]}
{"id": "C20", "title": "Irrep matrices generated from generators agree with the group law", "statement": "The matrices computed by breadth-first closure over generators equal the unique homomorphism extending the generator images, and every group element gets a matrix.", "quantifier": "every finite group, generating set and representation of it", "why_tests_cant": "closure exploration order depends on the group", "anchors": ["escnn/group/irrep.py: generate_irrep_matrices_from_generators"]}
{"id": "C21", "title": "Parametrisation changes round-trip", "statement": "`G.element(g.to(p), p) == g` for each supported parametrisation p of cyclic and dihedral elements.", "quantifier": "every N, every element, every parametrisation", "why_tests_cant": "matrix parametrisation is never round-tripped in tests", "anchors": ["escnn/group/groups/cyclicgroup.py: _change_param", "escnn/group/groups/dihedralgroup.py: _change_param"]}
{"id": "C22", "title": "Cached objects do not depend on call history", "statement": "`representation.restrict`, `subgroup`, `quotient_representation`, `induced_representation`, and gspace kernel bases return the same value for the same arguments whatever was requested before.", "quantifier": "every finite history of previous calls", "why_tests_cant": "history dependent: tests start from fresh caches", "anchors": ["escnn/group/group.py: subgroup, quotient_representation, induced_representation", "escnn/group/representation.py: restrict", "escnn/gspaces/gspace.py: build_kernel_basis"]}
{"id": "C23", "title": "Field type bookkeeping is consistent", "statement": "`FieldType.size` is the sum of its representations' sizes; `fields_start`/`fields_end` partition `[0,size)` into consecutive intervals of the representations' sizes; `irreps` is their concatenation; `t1 + t2` concatenates; `index_select` selects.", "quantifier": "every finite list of representations (including empty sizes)", "why_tests_cant": "unbounded lists", "anchors": ["escnn/nn/field_type.py: FieldType.size, fields_start, fields_end, irreps, __add__, index_select"]}
{"id": "C24", "title": "FieldType.sorted, group_by_labels and restrict preserve the fields", "statement": "`sorted()` is a stable permutation of the fields, `group_by_labels` partitions them preserving order, and both keep each field's representation; `restrict` acts field by field.", "quantifier": "every field type and labels", "why_tests_cant": "unbounded lists", "anchors": ["escnn/nn/field_type.py: sorted, group_by_labels, restrict"]}
{"id": "C25", "title": "transform_fibers and representation of a field type is the block-diagonal action", "statement": "`type.transform_fibers(x, g)` acts on each field by its representation, equals multiplication by `type.representation(g)`, and satisfies the action laws `g.(h.x) = (gh).x`, `e.x = x`.", "quantifier": "every field type, element and fibre", "why_tests_cant": "unbounded", "anchors": ["escnn/nn/field_type.py: transform_fibers, representation"]}
{"id": "C26", "title": "split then tensor_directsum is the identity and slicing selects exactly the requested fields", "statement": "Splitting a geometric tensor at breaks and concatenating with `tensor_directsum` restores the tensor, each piece has the field type of its channels; indexing the channel dimension by int/slice returns channels and types of exactly those fields.", "quantifier": "every tensor, every strictly increasing list of breaks, every Python index or slice", "why_tests_cant": "Python slice semantics with negative / out-of-range values and unbounded lists", "anchors": ["escnn/nn/geometric_tensor.py: GeometricTensor.split, __getitem__, tensor_directsum"]}
{"id": "C27", "title": "Arithmetic on geometric tensors is equivariant and type-checked", "statement": "Addition, subtraction and scalar multiplication commute with `transform_fibers`; combining tensors of different types raises; in-place variants agree with the pure ones.", "quantifier": "every pair of tensors, scalar, and element", "why_tests_cant": "all inputs", "anchors": ["escnn/nn/geometric_tensor.py: __add__, __sub__, __mul__, __iadd__, __imul__"]}
{"id": "C28", "title": "Reshuffle, branching and merging route whole fields and commute with the action", "statement": "ReshuffleModule with a permutation outputs field i = input field perm[i]; BranchingModule sends each labelled field to the branch of its label and MergeModule/MultipleModule reassemble them; outputs have the declared `out_type` and the maps commute with the group action.", "quantifier": "every field type, permutation, label list and input", "why_tests_cant": "unbounded permutations and labels", "anchors": ["escnn/nn/modules/reshuffle_module.py", "escnn/nn/modules/branching_module.py", "escnn/nn/modules/merge_module.py", "escnn/nn/modules/multiple_module.py"]}
{"id": "C29", "title": "Channel index tables address exactly the labelled channels, and contiguity detection is sound", "statement": "`indexes_from_labels` returns for each label exactly the channels of its fields in order, and reports contiguous iff those channels form an interval; a contiguous group can be replaced by the slice [min, max+1) without changing any result.", "quantifier": "every field type and labelling", "why_tests_cant": "the contiguity test is arithmetic over arbitrary lists", "anchors": ["escnn/nn/modules/utils.py: indexes_from_labels, check_consecutive_numbers"]}
{"id": "C30", "title": "SequentialModule composes equivariant maps and keeps module order across histories", "statement": "`SequentialModule(m1..mn)` requires out_type(mi)=in_type(mi+1), computes the composition, is equivariant when each mi is, and `append`/indexing/iteration/slicing always describe the same list of modules.", "quantifier": "every sequence of modules and every history of append/slice operations", "why_tests_cant": "history dependent", "anchors": ["escnn/nn/modules/sequential_module.py: SequentialModule.__init__, append, __getitem__, forward"]}
{"id": "C31", "title": "Restriction and Disentangle modules preserve data and commute with the subgroup action", "statement": "RestrictionModule keeps the tensor and changes its type; for each h in the subgroup acting on the output equals acting by the included element on the input. DisentangleModule's output transforms under the disentangled type.", "quantifier": "every representation, subgroup element and input", "why_tests_cant": "all inputs", "anchors": ["escnn/nn/modules/restriction_module.py", "escnn/nn/modules/disentangle_module.py"]}
{"id": "C32", "title": "Basis-expansion weights are partitioned exactly among representation pairs", "statement": "The weight ranges `[start,end)` assigned to (in repr, out repr) pairs are disjoint, consecutive and cover `[0, dimension())`; so each learnable weight is used by exactly one block.", "quantifier": "every pair of field types and every per-pair basis size", "why_tests_cant": "unbounded number of pairs", "anchors": ["escnn/nn/modules/basismanager/basisexpansion_blocks.py: BlocksBasisExpansion.__init__, dimension", "escnn/nn/modules/basismanager/basissampler_blocks.py"]}
{"id": "C33", "title": "get_element_info(id) and get_basis_info() agree and invert the weight layout", "statement": "The i-th item yielded by `get_basis_info()` is `get_element_info(i)`, ids are 0..dimension-1, and decoding an id into (pair, out field, in field, basis element) is a bijection.", "quantifier": "every field type pair and each weight index", "why_tests_cant": "mixed-radix arithmetic over unbounded sizes", "anchors": ["escnn/nn/modules/basismanager/basisexpansion_blocks.py: get_element_info, get_basis_info", "escnn/nn/modules/basismanager/basissampler_blocks.py"]}
{"id": "C34", "title": "Basis expansion writes every (output channel, input channel) block exactly once and yields an equivariant filter", "statement": "The filter returned by the basis expansion, as a matrix of blocks, has block (out field o, in field i) = the weighted sum of basis elements for their representation pair (zero if the basis is empty) independent of whether fields are contiguous; if each basis element satisfies the kernel constraint then so does the filter.", "quantifier": "every field-type pair, weights, and basis", "why_tests_cant": "scatter/reshape code paths depend on field layout", "anchors": ["escnn/nn/modules/basismanager/basisexpansion_blocks.py: _expand_block, forward", "escnn/nn/modules/basismanager/basisexpansion_singleblock.py"]}
{"id": "C35", "title": "Wigner-Eckart kernels satisfy the steerability constraint", "statement": "Every element of WignerEckartBasis satisfies K(g x) = psi_out(g) K(x) psi_in(g)^-1 whenever harmonics are steerable, Clebsch-Gordan coefficients intertwine, and endomorphisms commute.", "quantifier": "every group, irreps, point, basis index", "why_tests_cant": "holds for all points and irreps", "anchors": ["escnn/kernels/wignereckart_solver.py: WignerEckartBasis"]}
{"id": "C36", "title": "Restricted Wigner-Eckart kernels satisfy the subgroup constraint", "statement": "Every element of RestrictedWignerEckartBasis satisfies the constraint for each element of the subgroup.", "quantifier": "every group, subgroup, irreps, point, index", "why_tests_cant": "same", "anchors": ["escnn/kernels/wignereckart_solver.py: RestrictedWignerEckartBasis"]}
{"id": "C37", "title": "Kernel-basis attribute indices decode uniquely and iterators agree with random access", "statement": "For Wigner-Eckart, steerable, union and sparse bases, `basis[i]` agrees with the i-th item of `iter(basis)` and with the i-th sampled filter; every index in [0,dim) is decoded to a distinct tuple.", "quantifier": "every basis size and index", "why_tests_cant": "mixed-radix index arithmetic", "anchors": ["escnn/kernels/wignereckart_solver.py: attrs_j, attrs_j_iter", "escnn/kernels/steerable_basis.py: __getitem__, __iter__", "escnn/kernels/basis.py: UnionBasis", "escnn/kernels/sparse_basis.py"]}
{"id": "C38", "title": "SteerableKernelBasis between arbitrary representations is steerable", "statement": "With change-of-basis matrices A, B and per-irrep-pair bases, each sampled kernel K = B K' A^-1 satisfies the constraint for the full representations; the slices of irrep pairs partition the basis dimension for each harmonic.", "quantifier": "every pair of representations, points", "why_tests_cant": "all representations", "anchors": ["escnn/kernels/steerable_basis.py: SteerableKernelBasis"]}
{"id": "C39", "title": "Circular harmonics are steerable under O(2)", "statement": "The harmonics of frequency k sampled at a rotated/reflected point are the irrep matrix times the harmonics at the original point; radial profiles depend on the radius only so the product basis is steerable; at the origin only k=0 is non-zero.", "quantifier": "every frequency, point and group element, axis phase", "why_tests_cant": "all points", "anchors": ["escnn/kernels/polar_basis.py: circular_harmonics, CircularShellsBasis, GaussianRadialProfile"]}
{"id": "C40", "title": "Polar basis index layout is consistent", "statement": "For CircularShellsBasis/SphericalShellsBasis the (radius, frequency, component) layout used by sampling, `__getitem__`, `__iter__`, and `steerable_attrs_j_iter` coincide.", "quantifier": "every number of radii, frequencies, filters", "why_tests_cant": "integer arithmetic corner cases", "anchors": ["escnn/kernels/polar_basis.py: CircularShellsBasis.__getitem__, __iter__, steerable_attrs_j, steerable_attrs_j_iter, steerable_attrs"]}
{"id": "C41", "title": "Equivariant bias vectors are exactly invariant", "statement": "The bias expanded by Linear/_RdConv (columns of the change of basis at trivial irreps) is fixed by the output representation for each weight, so adding it is equivariant; conversely each invariant vector is representable.", "quantifier": "every output type, bias weights, group element", "why_tests_cant": "all changes of basis", "anchors": ["escnn/nn/modules/linear.py: Linear", "escnn/nn/modules/conv/rd_convolution.py: _RdConv"]}
{"id": "C42", "title": "Linear layers are equivariant", "statement": "For each weights, `Linear(g.x) = g.Linear(x)`.", "quantifier": "all weights, types, inputs, elements", "why_tests_cant": "all inputs", "anchors": ["escnn/nn/modules/linear.py"]}
{"id": "C43", "title": "Convolution with a steerable kernel is equivariant", "statement": "Convolving a feature field with a steerable filter sampled on the centred grid commutes with rotations by 90 degrees/reflections for C4/D4, for each weight vector; get_grid_coords is closed under that action.", "quantifier": "all kernel sizes, weights, feature maps, elements", "why_tests_cant": "all inputs", "anchors": ["escnn/nn/modules/conv/rd_convolution.py: get_grid_coords, forward", "escnn/gspaces/utils.py: linear_transform_array_nd"]}
{"id": "C44", "title": "Transforming a feature map on the grid is a group action", "statement": "For 90 degree rotations and reflections the exact transpose/flip transformation of a feature map is a group action and a permutation of pixels.", "quantifier": "all sizes, elements", "why_tests_cant": "all sizes", "anchors": ["escnn/gspaces/utils.py: linear_transform_array_nd"]}
{"id": "C45", "title": "train()/eval() caching never serves a stale filter", "statement": "In eval mode a convolution / linear layer computes with the filter expanded from its current weights.", "quantifier": "every history of train/eval/weight update/forward/load operations", "why_tests_cant": "history dependent", "anchors": ["escnn/nn/modules/conv/rd_convolution.py: train", "escnn/nn/modules/linear.py: train", "escnn/nn/modules/pointconv/rd_point_convolution.py: train"]}
{"id": "C46", "title": "export() preserves the function computed in eval mode", "statement": "The exported PyTorch module computes the same output (and shape) as the equivariant module in eval mode.", "quantifier": "all hyper-parameters and inputs", "why_tests_cant": "hyper-parameter combinations", "anchors": ["escnn/nn/modules/conv/r2convolution.py: export", "escnn/nn/modules/pooling/pointwise_max.py: export", "escnn/nn/modules/batchnormalization/iid.py: export", "escnn/nn/modules/sequential_module.py: export"]}
{"id": "C47", "title": "evaluate_output_shape predicts the real output shape", "statement": "For convolutions, transposed convolutions and poolings, `evaluate_output_shape(input_shape)` equals the shape of forward's output.", "quantifier": "all sizes, strides, paddings, dilations, ceil_mode", "why_tests_cant": "all hyper-parameters", "anchors": ["escnn/nn/modules/conv/rd_convolution.py: evaluate_output_shape", "escnn/nn/modules/conv/rd_transposed_convolution.py", "escnn/nn/modules/pooling/pointwise_max.py", "escnn/nn/modules/pooling/norm_max.py", "escnn/nn/modules/pooling/pointwise_avg.py"]}
{"id": "C48", "title": "Pointwise nonlinearities commute with permutation representations", "statement": "Applying a pointwise function commutes with `transform` for types whose representations support 'pointwise' (permutation matrices), e.g. regular and quotient representations; for a representation that is not a permutation this can fail.", "quantifier": "every function, permutation representation, input", "why_tests_cant": "all functions", "anchors": ["escnn/nn/modules/nonlinearities/pointwise.py", "escnn/nn/modules/nonlinearities/relu.py"]}
{"id": "C49", "title": "Norm nonlinearities are equivariant for orthogonal representations", "statement": "NormNonLinearity rescales each field by a function of its norm and commutes with orthogonal representations, for each function, bias and eps.", "quantifier": "all field types, functions, biases, inputs", "why_tests_cant": "all inputs", "anchors": ["escnn/nn/modules/nonlinearities/norm.py"]}
{"id": "C50", "title": "Gated nonlinearities are equivariant", "statement": "GatedNonLinearity multiplies each gated field with a sigmoid of its own gate; invariant gates make the map equivariant; each gate is used by exactly one field.", "quantifier": "all types with gates, inputs", "why_tests_cant": "all layouts", "anchors": ["escnn/nn/modules/nonlinearities/gated1.py", "escnn/nn/modules/nonlinearities/gated3.py"]}
{"id": "C51", "title": "Induced norm/gated nonlinearities and pooling are equivariant/invariant for induced representations", "statement": "For block-permutation representations with orthogonal blocks, InducedNormNonLinearity is equivariant and InducedNormPool is invariant.", "quantifier": "all induced representations, inputs", "why_tests_cant": "all inputs", "anchors": ["escnn/nn/modules/nonlinearities/induced_norm.py", "escnn/nn/modules/invariantmaps/induced_norm.py"]}
{"id": "C52", "title": "Concatenated nonlinearity is equivariant for sign-permutation representations", "statement": "ConcatenatedNonLinearity maps a signed permutation representation to the doubled permutation representation and is equivariant for each function.", "quantifier": "all signed permutation reps, functions, inputs", "why_tests_cant": "all", "anchors": ["escnn/nn/modules/nonlinearities/concatenated.py"]}
{"id": "C53", "title": "Fourier pointwise nonlinearities are exactly equivariant when sampled on the whole group", "statement": "FourierPointwise with a grid containing each group element once commutes with the action.", "quantifier": "all finite groups, functions, inputs", "why_tests_cant": "all", "anchors": ["escnn/nn/modules/nonlinearities/fourier.py", "escnn/nn/modules/nonlinearities/fourier_quotient.py"]}
{"id": "C54", "title": "Vector field nonlinearity is equivariant when the maximum is unique", "statement": "VectorFieldNonLinearity maps regular fields of C_N to frequency-1 vectors equivariantly.", "quantifier": "all N and inputs", "why_tests_cant": "ties are measure zero so tests never hit them", "anchors": ["escnn/nn/modules/nonlinearities/vectorfield.py"]}
{"id": "C55", "title": "Group pooling and norm pooling are invariant", "statement": "GroupPooling over a permutation representation and NormPool over an orthogonal representation produce outputs unchanged by the group action.", "quantifier": "all types, inputs, elements", "why_tests_cant": "all inputs", "anchors": ["escnn/nn/modules/invariantmaps/gpool.py", "escnn/nn/modules/invariantmaps/norm.py"]}
{"id": "C56", "title": "Batch normalisation is equivariant in training and evaluation, with running statistics unaffected by transforming inputs", "statement": "IIDBatchNorm/InnerBatchNorm/NormBatchNorm/GNormBatchNorm outputs commute with the action and their running statistics after any training history do not change if each batch is transformed by a group element.", "quantifier": "each history of training batches and each transformation", "why_tests_cant": "history dependent", "anchors": ["escnn/nn/modules/batchnormalization/iid.py", "escnn/nn/modules/batchnormalization/inner.py", "escnn/nn/modules/batchnormalization/norm.py", "escnn/nn/modules/batchnormalization/gnorm.py"]}
{"id": "C57", "title": "Field normalisation is equivariant", "statement": "FieldNorm normalises each field using invariant statistics and commutes with the action.", "quantifier": "all types, inputs", "why_tests_cant": "all inputs", "anchors": ["escnn/nn/modules/normalization/fieldnorm.py"]}
{"id": "C58", "title": "Field dropout drops whole fields and keeps the mean", "statement": "FieldDropout multiplies every channel of a field by the same factor 0 or 1/(1-p); in eval mode it is the identity; `inplace` does not change the result.", "quantifier": "all types, masks, p, inplace", "why_tests_cant": "random masks", "anchors": ["escnn/nn/modules/dropout/field.py", "escnn/nn/modules/dropout/pointwise.py"]}
{"id": "C59", "title": "Norm max pooling and pointwise max pooling commute with the fibre action", "statement": "NormMaxPool picks whole field vectors at the position of maximal norm, hence commutes with orthogonal fibre actions; PointwiseMaxPool commutes with permutation fibre actions.", "quantifier": "all inputs", "why_tests_cant": "all inputs", "anchors": ["escnn/nn/modules/pooling/norm_max.py", "escnn/nn/modules/pooling/pointwise_max.py"]}
{"id": "C60", "title": "Masking with build_mask is invariant under the grid symmetries", "statement": "The circular mask used by MaskModule depends on the distance to the centre only, so masking commutes with rotations/flips of the grid.", "quantifier": "all sizes and margins", "why_tests_cant": "all sizes", "anchors": ["escnn/nn/modules/masking_module.py: build_mask"]}
{"id": "C61", "title": "Product-group irreps have the right type, size and homomorphism property", "statement": "`irrep` of direct products built from factor irreps are homomorphisms and decompose the tensor product into the number of copies prescribed by the R/C/H rule.", "quantifier": "all factor irreps", "why_tests_cant": "all pairs", "anchors": ["escnn/group/directproduct.py: _build_irrep"]}
{"id": "C62", "title": "Basis sampler: sampling then contracting equals contracting then sampling", "statement": "For groups=1, the two evaluation orders of BlocksBasisSampler (expand weights first or compute features first) agree.", "quantifier": "all inputs and layouts", "why_tests_cant": "all inputs", "anchors": ["escnn/nn/modules/basismanager/basissampler_blocks.py: compute_then_expand, expand_then_compute"]}
{"id": "C63", "title": "He initialisation variances are consistent with the basis", "statement": "The per-weight variance assigned by generalized_he_init is positive and constant over each (input repr, output repr, harmonic) group; weights of a group share 1/(inputs_count*basis_count) variance.", "quantifier": "all basis layouts", "why_tests_cant": "all layouts", "anchors": ["escnn/nn/init.py: _generalized_he_init_variances"]}
{"id": "C64", "title": "Representation and group-element equality is an equivalence compatible with hashing", "statement": "Equality of finite-group elements is an equivalence and equal elements have equal hashes; subgroup ids and direct-product irrep ids round-trip through encode/decode.", "quantifier": "all elements", "why_tests_cant": "all", "anchors": ["escnn/group/group.py: GroupElement.__eq__, __hash__", "escnn/group/directproduct.py: _encode_subgroup_id_pair", "escnn/group/groups/so2group.py: _equal,_hash_element"]}
{"id": "C65", "title": "Kernel bases on the plane are steerable end to end", "statement": "For every in/out representation of SO(2), C_N or D_N, every list of radii and widths, every cut-off L and every filter, kernels_SO2_act_R2, kernels_CN_act_R2 and kernels_DN_act_R2 either report an empty basis or return a basis of out.size x in.size matrices in which every element k satisfies k(g x) rho_in(g) = rho_out(g) k(x) for each group element g acting on the plane by rotation by its angle (and reflection about the chosen axis).", "quantifier": "all representations, radii, sigmas, L, filters, N, axis, points and group elements", "why_tests_cant": "The repository samples a few groups, points and elements within tolerance; the composition of radial profile, circular harmonics, restriction and Clebsch-Gordan solver is claimed for all of them.", "anchors": ["escnn/kernels/r2.py:26", "escnn/kernels/r2.py:132", "escnn/kernels/r2.py:205", "escnn/kernels/r2.py:265"]}
{"id": "C66", "title": "Reused sampled filters are those which would be computed", "statement": "For every sequence of calls of block_basisexpansion (any bases, points, basis filters and recompute flags), each call returns the same attributes, mask and sampled filters as SingleBlockBasisExpansion(basis, points, mask) would compute: an entry of the global dictionary _stored_filters is only reused for a basis with the same filters.", "quantifier": "all histories of calls, all bases of steerable kernels on the plane for O(2) and its subgroups, all points and masks", "why_tests_cant": "The dictionary is global state shared by all layers of the process; a wrong reuse needs two particular bases in one process in a particular order.", "anchors": ["escnn/nn/modules/basismanager/basisexpansion_singleblock.py:120", "escnn/kernels/polar_basis.py:1007", "escnn/kernels/steerable_basis.py:554"]}
{"id": "C67", "title": "Representation.tensor is the tensor product", "statement": "For every two representations rho1, rho2 of a group, rho1.tensor(rho2) returns without error a well formed representation of size rho1.size*rho2.size whose matrix at every group element is the Kronecker product of the matrices of rho1 and rho2, whose irreps are those of the tensor products of the irreps with their multiplicities, and which declares only nonlinearities that commute with its action.", "quantifier": "all groups with valid irreps and Clebsch-Gordan coefficients (in particular all C_N and SO(2)); all representations (any list of irreps with repetitions, any change of basis); all group elements", "why_tests_cant": "the permutation and block bookkeeping depends on the number and the sizes of the irreps of both factors; tests use a few small representations", "anchors": ["escnn/group/group.py:762-844", "escnn/group/group.py:934-948", "escnn/group/representation.py:385-389"]}
{"id": "C68", "title": "TensorProductModule is equivariant", "statement": "The constructor of TensorProductModule fails with ValueError exactly when there is no equivariant basis element between the tensor square of the input representation and the output representation; otherwise, for all weights, the module (tensor square of every field followed by a grouped equivariant projection) commutes with the action of the group at every position, mixes no positions, computes the same in evaluation mode, and declares the right output shape.", "quantifier": "all uniform field types with the same number of fields, all well-formed representations, all weights, all inputs, all group elements", "why_tests_cant": "infinitely many representations, weights and inputs; the grouped matrix is one view of a flat buffer whose layout is only right by an index argument", "anchors": ["escnn/nn/modules/nonlinearities/tensor.py: TensorProductModule"]}
{"id": "C69", "title": "The kernel bases are complete", "statement": "Every steerable kernel whose entries are combinations of the (linearly independent) filters is a combination, with the same coefficients at all points, of the kernels of SteerableKernelBasis built with the Wigner-Eckart solver or the restricted solver; when the constructor raises EmptyBasisException, the only such kernel is zero. In particular the basis used by Linear spans all the equivariant matrices, and kernels_SO2_act_R2 and kernels_CN_act_R2 span all the steerable kernels with the given Gaussian profiles and circular harmonics, which are linearly independent when the pairs (radius, sigma) are distinct.", "quantifier": "all representations of SO(2) and C_N (and of any group with a valid Clebsch-Gordan table and irreps of the stated types), all filter bases, all lists of radii and widths, all frequencies, all steerable kernels", "why_tests_cant": "a statement about all kernels: completeness needs Schur's lemma for all pairs of irreps, tests only ever find kernels which are in the basis", "anchors": ["escnn/kernels/wignereckart_solver.py: WignerEckartBasis, RestrictedWignerEckartBasis", "escnn/kernels/steerable_basis.py: SteerableKernelBasis", "escnn/kernels/r2.py: kernels_SO2_act_R2, kernels_CN_act_R2", "escnn/kernels/polar_basis.py: CircularShellsBasis"]}
{"id": "C70", "title": "The elements of the kernel bases are linearly independent", "statement": "Whenever the filters are linearly independent, the kernels of SteerableKernelBasis built with the Wigner-Eckart solver or the restricted solver are linearly independent as functions on the base space: the only combination which vanishes at all points is that with all weights zero. In particular two different weight vectors of a Linear basis give different matrices, and with distinct pairs (radius, sigma) two different weight vectors of kernels_SO2_act_R2 or kernels_CN_act_R2 give different kernels; together with C69 the stored basis is a basis, and its dimension is that of the space of steerable kernels.", "quantifier": "all representations of SO(2) and C_N (and of any group with a valid orthonormal Clebsch-Gordan table and irreps of the stated types), all filter bases, all lists of radii and widths, all frequencies, all weights", "why_tests_cant": "a statement about all weight vectors and all pairs of representations; a redundant element would only show up as a rank deficiency in one of infinitely many configurations", "anchors": ["escnn/kernels/wignereckart_solver.py: WignerEckartBasis, RestrictedWignerEckartBasis", "escnn/kernels/steerable_basis.py: SteerableKernelBasis", "escnn/kernels/r2.py: kernels_SO2_act_R2, kernels_CN_act_R2"]}
{"id": "C71", "title": "Upsampling commutes with the symmetries of the grid", "statement": "R2Upsampling and R3Upsampling with a positive integer scale_factor commute with the action of every element which acts on the base space by a signed permutation matrix (rotations by 90 degrees, reflections), in every mode (nearest, bilinear, trilinear) and for both values of align_corners. With the same size along each axis the linear modes commute with them too (unless align_corners is set and an axis of several pixels is mapped to one pixel), and for the half turn mode nearest does exactly when the size of the input divides that of the output.", "quantifier": "all field types of well-formed representations, all feature maps of any spatial sizes, all scale factors and sizes, all group elements acting by signed permutation matrices", "why_tests_cant": "the interpolation weights depend on the sizes of the input and of the output; check_equivariance tries one size, and the modes which fail do so only for some pairs of sizes", "anchors": ["escnn/nn/modules/rdupsampling.py: _RdUpsampling.__init__, forward", "escnn/nn/geometric_tensor.py: GeometricTensor.transform"]}
{"id": "C72", "title": "Poolings commute with the symmetries of the grid", "statement": "PointwiseAvgPool, PointwiseAdaptiveAvgPool and PointwiseAvgPoolAntialiased commute with the action of every element which acts on the base space by a signed permutation matrix, for all representations; PointwiseMaxPool, PointwiseAdaptiveMaxPool and PointwiseMaxPoolAntialiased do for permutation representations; NormMaxPool does for orthogonal representations if in each window one position has a greater norm than all others. The arguments have to be the same for each axis and the windows have to reach both ends of each axis (the stride divides size + 2 padding - dilation (kernel - 1) - 1); the adaptive poolings need only the same output size along each axis. For the half turn, without padding and dilation, PointwiseMaxPool commutes with it on all scalar images exactly when the stride divides size - kernel.", "quantifier": "all field types of well-formed representations, all feature maps of any spatial sizes, all kernel sizes, strides, paddings, dilations and ceil modes, all group elements acting by signed permutation matrices", "why_tests_cant": "check_equivariance of these modules tries one shape and random inputs; whether the windows are mirrored depends on the sizes, and the failures appear only for some pairs of size and stride", "anchors": ["escnn/nn/modules/pooling/pointwise_max.py: _PointwiseMaxPoolND, _PointwiseMaxPoolAntialiasedND", "escnn/nn/modules/pooling/pointwise_avg.py: _PointwiseAvgPoolND, _PointwiseAvgPoolAntialiasedND", "escnn/nn/modules/pooling/pointwise_adaptive_max.py", "escnn/nn/modules/pooling/pointwise_adaptive_avg.py", "escnn/nn/modules/pooling/norm_max.py: NormMaxPool"]}
{"id": "C73", "title": "Transposed convolutions commute with the symmetries of the grid", "statement": "R2ConvTransposed and R3ConvTransposed without output padding and with the same padding along each axis commute with the action of every element which acts on the base space by a signed permutation matrix (rotations by 90 degrees, reflections), for all weights, groups, kernel sizes, strides and dilations; if no kernel exists the constructor raises ValueError. Every positive output padding below the stride breaks it.", "quantifier": "all field types whose representations are told apart by their escaped names, all weights and biases, kernel sizes, strides, dilations, paddings, groups, all feature maps of any spatial sizes, all group elements acting by signed permutation matrices", "why_tests_cant": "the filter is transposed and regrouped before the convolution, so an error may show only for several groups, even kernels or strides; tests try a few shapes with random weights", "anchors": ["escnn/nn/modules/conv/rd_transposed_convolution.py: _RdConvTransposed.__init__, expand_parameters", "escnn/nn/modules/conv/r2_transposed_convolution.py: R2ConvTransposed.forward", "escnn/nn/modules/conv/r3_transposed_convolution.py: R3ConvTransposed.forward"]}
{"id": "C74", "title": "Point convolutions commute with the symmetries", "statement": "The point convolutions (_RdPointConv, R2PointConv) with one group either raise ValueError in the constructor, exactly if no kernel exists for any pair of input and output fields, or commute with every element of the group: moving the points (and the given edge deltas) and acting on the features before the layer gives the same features as acting on its output, for all weights, in training and in evaluation mode. With several groups the same holds unless every call raises. Moving all points by a vector changes nothing. A call without edges raises, and evaluate_output_shape refuses the shapes which forward accepts.", "quantifier": "all field types whose representations are told apart by their names, all weights and biases, all sets of points, non-empty lists of edges, edge deltas, all elements of the group (for R2: all rotations of SO(2) and of C_N)", "why_tests_cant": "tests try a few random point clouds, one graph and random weights, compared up to a tolerance; the order of the two contractions depends on the sizes", "anchors": ["escnn/nn/modules/pointconv/rd_point_convolution.py: _RdPointConv", "escnn/nn/modules/basismanager/basissampler_blocks.py: BlocksBasisSampler", "escnn/nn/modules/pointconv/r2_point_convolution.py: R2PointConv"]}
{"id": "C75", "title": "SO(3) and the maps of its subgroups", "statement": "The elements of SO(3) compose, invert and compare as their rotation matrices. For every documented id (and adjoint element) subgroup(id) returns the documented group: the inclusion never raises, is an injective homomorphism and maps h to A^-1 rho(h) A, with rho(h) the documented rotation around Z or flip; the restriction inverts it on every element of the subgroup, for either of the two quaternions, and returns None outside of SO(2), O(2) and the groups of the solids; for C_N, D_N it never raises and returns only elements within 1e-8 of the given one. An id with a float axis denotes the group with the flips around the axis at half that angle, (True, 1) denotes the half turn around X; other ids raise.", "quantifier": "all unit quaternions, all adjoint elements, all N, all axes; both choices of sign in Rotation.as_quat", "why_tests_cant": "tests draw random adjoint elements and compare up to a tolerance, for a few N; they do not cover both quaternions of a rotation", "anchors": ["escnn/group/groups/so3group.py: SO3._subgroup, SO3._process_subgroup_id", "escnn/group/groups/so3group.py: so2_to_so3, so3_to_so2, o2_to_so3, so3_to_o2, rotgroup_to_so3, so3_to_rotgroup", "escnn/group/groups/so3_utils.py: _invert, _combine, _equal"]}
{"id": "C76", "title": "O(3) and the maps of its subgroups", "statement": "The elements of O(3) compose, invert and compare as their orthogonal matrices; the inversion is the matrix -1. For every documented id (and adjoint element) subgroup(id) returns the documented group: SO(3), the groups of the solids with or without the inversion, rotations around an axis and flips with or without the inversion, the inversion, cones, pyramids and the mirroring; the inclusion never raises, is an injective homomorphism and maps h to A^-1 rho(h) A; the restriction inverts it on every element of the subgroup and returns None outside (for C_N, D_N: never raises and returns only elements within 1e-8). An id with a float axis denotes the group with the flips, or for cones the reflections, at the documented angle.", "quantifier": "all elements, all adjoint elements (with or without inversion), all N, all axes; both choices of sign in Rotation.as_quat", "why_tests_cant": "tests draw random adjoint elements and compare up to a tolerance, for a few N; no test fixes the axis of the reflections of a cone", "anchors": ["escnn/group/groups/o3group.py: O3._inverse, O3._combine, O3._equal, O3._subgroup, O3._process_subgroup_id", "escnn/group/groups/o3group.py: so3_to_o3, o3_to_so3, so2_to_o3, o3_to_so2, dih_to_o3, o3_to_dih, con_to_o3, o3_to_con, mir_to_o3, o3_to_mir, inv_to_o3, o3_to_inv, cyl_to_o3, o3_to_cyl, fullcyl_to_o3, o3_to_fullcyl, fullplato_to_o3, o3_to_fullplato"]}
{"id": "C77", "title": "Subgroups of subgroups of SO(3) and O(3)", "statement": "For every documented id of a subgroup H of SO(3) or O(3) and every id of a subgroup K of H, subgroup(_combine_subgroups(id1, id2)), and so restrict of the gspaces of R^3, returns the group K, and its inclusion is the composition of the inclusions of K in H and of H in the whole group: on every element of K both act as the same matrix, also for conjugated subgroups.", "quantifier": "all ids, all adjoint elements, all N and M dividing N, all axes, all elements", "why_tests_cant": "tests compare restricted representations at random elements for a few pairs of ids, mostly with the identity as adjoint element; the branches of O(3) for groups of rotations, cones and cylinders are not called", "anchors": ["escnn/group/groups/so3group.py: SO3._combine_subgroups, pole_to_point (local function)", "escnn/group/groups/o3group.py: O3._combine_subgroups", "escnn/gspaces/r3.py: GSpace3D.restrict"]}
{"id": "C78", "title": "The symmetries of the gspaces of R^3", "statement": "The constructors of the gspaces of R^3 accept n = -1 and n > 0, reject every other n, and build the gspace whose set of symmetries is the documented one: all rotations, all orthogonal matrices, the rotations of a solid with or without their negatives, the n rotations (or all) around A^-1 (0,0,1), the half turns around the line at the angle axis in the plane XY, the reflections at the plane through Z and the direction at the angle axis, the inversion, the identity.", "quantifier": "all n, all axes, all adjoint elements", "why_tests_cant": "the set of symmetries is infinite for continuous groups; tests check invariance of the kernels built from the same subgroup, which holds whichever the axis of the subgroup is", "anchors": ["escnn/gspaces/r3.py: GSpace3D.__init__, flipRot3dOnR3, rot3dOnR3, fullIcoOnR3, icoOnR3, fullOctaOnR3, octaOnR3, dihedralOnR3, rot2dOnR3, conicalOnR3, mirOnR3, fullCylindricalOnR3, cylindricalOnR3, invOnR3, trivialOnR3"]}
{"id": "C79", "title": "Irreps of SO(3) and O(3) and their restrictions", "statement": "For every l (and parity j) irrep(l) of SO(3) and irrep(j, l) of O(3) are orthogonal representations of the declared size 2l+1 which do not depend on the sign of the quaternion; standard_representation() is the matrix of the element; and for every subgroup id for which _restrict_irrep has a closed form (SO(3), SO(2), O(2), cyclic, dihedral, inversion, cone) and every adjoint element it returns an orthogonal change of basis Q and a list of irreps of the subgroup such that irrep(parent(h)) = Q (sum of the irreps of h) Q^T for every element h.", "quantifier": "all degrees, all parities, all adjoint elements, all orders n, all elements", "why_tests_cant": "the degree, the order of the subgroup, the adjoint element and the element all range over infinite sets; tests restrict a few low degrees to a few subgroups with the identity as adjoint", "anchors": ["escnn/group/groups/so3group.py: SO3.irrep, SO3._restrict_irrep, SO3.standard_representation, _build_irrep_so3", "escnn/group/groups/o3group.py: O3.irrep, O3._restrict_irrep, O3.standard_representation, _build_irrep_o3", "escnn/group/groups/so3_utils.py: _wigner_d_matrix"]}
{"id": "C80", "title": "Characters, tensor products and band-limited regular representations of SO(3) and O(3)", "statement": "The character of every irrep of SO(3) and O(3) is the trace of its matrix for every element whose rotation is not within the tolerance of the identity, and differs from it by at most 2/3 l(l+1)(2l+1) 10^-16 otherwise; _tensor_product_irreps(J, l) lists irreps, without repetition, whose characters with the multiplicities sum up to the product of the two characters; bl_regular_representation(L) contains every irrep of frequency at most L as often as its dimension and nothing else.", "quantifier": "all degrees, all parities, all elements, all L", "why_tests_cant": "the degrees and the elements range over infinite sets; tests compare floating point traces at random elements, which are almost never in the branch of the tolerance", "anchors": ["escnn/group/groups/so3_utils.py: _character", "escnn/group/groups/so3group.py: SO3._tensor_product_irreps, SO3.bl_regular_representation", "escnn/group/groups/o3group.py: O3._tensor_product_irreps, O3.bl_regular_representation, _build_char_o3"]}
{"id": "C81", "title": "Kernel bases on R^3 are steerable", "statement": "The harmonic polynomials built by HarmonicPolynomialR3Generator are homogeneous of degree l and transform under every element of O(3) with the irrep (l mod 2, l); the basis of Gaussian shells and spherical harmonics is steerable under O(3); kernels_O3_act_R3 and kernels_SO3_act_R3 return bases whose kernels all satisfy K(g x) = rho_out(g) K(x) rho_in(g)^-1 for the action of the group on R^3 and whose number is that of the admissible triples of irreps; kernels_O3_subgroup_act_R3 and kernels_SO3_subgroup_act_R3 do so for the subgroup in the position given by the adjoint element; GSpace3D._basis_generator reaches these functions for each of its groups and works for every value of its optional maximum_frequency. The Clebsch-Gordan coefficients of O(3) decompose the tensor products of its irreps whenever those of SO(3) do.", "quantifier": "All maximal frequencies, all lists of radii and widths, all filters, all input and output representations of the group, all group elements, all points of R^3, all positions of the subgroup.", "why_tests_cant": "Tests sample a few points, frequencies and group elements with a numeric tolerance; a wrong block or sign in a high frequency or for one subgroup position is not hit.", "anchors": ["escnn/kernels/r3.py:18-260", "escnn/kernels/harmonic_polynomial_r3.py:10-110", "escnn/kernels/polar_basis.py:100-400", "escnn/gspaces/r3.py:120-160", "escnn/group/groups/o3group.py:1196-1205"]}
{"id": "C82", "title": "Harmonics of homogeneous spaces and sparse orbit bases are steerable", "statement": "HomSpace.basis(g, rho, psi) transforms under left multiplication of g with rho and under right multiplication by the subgroup with psi; complete_basis transforms with induced_representation; whenever the constructor of SparseOrbitBasis succeeds, the subgroup is exactly the stabiliser of the root, there is one point per coset, and the sampled filters of every harmonic j at the point moved by basis.action(g) are the matrix of the irrep j times those at the original point, with or without change_of_basis; the constructor succeeds for every finite group, every root whose stabiliser is the subgroup and every set of harmonics, as long as the rounding of the coordinates keeps the points of the orbit apart.", "quantifier": "all finite groups and subgroups, all orthogonal actions and roots, all sets of harmonics, all widths, all points and group elements", "why_tests_cant": "groups, roots, points and widths range over infinite sets; the invariance rests on the sum over one representative per coset, of which tests only see a few numeric samples", "anchors": ["escnn/group/homspace.py:75-159", "escnn/group/homspace.py:245-454", "escnn/kernels/sparse_basis.py:15-179"]}
{"id": "C83", "title": "Numerical decomposition of representations", "statement": "The kernel of build_sylvester_constraint consists of the intertwiners. find_irreps_multiplicities_finitegroup returns how often each irrep occurs. Whatever the numerical routines return, if decompose_representation_finitegroup returns (D, irreps) then rho(g) = D @ P(g) @ inv(D) for every element of the group, not only the generators checked, and build_from_discrete_group_representation returns a well-formed representation whose matrices are the given ones. With exact numerical routines both return for every representation equivalent to a direct sum of irreps of a finite group, with sorted irreps and an orthogonal change of basis. If decompose_representation_general returns, its change of basis is orthogonal and decomposes the representation.", "quantifier": "all finite groups with orthogonal irreps and characters (instances: all cyclic and dihedral groups), all representations, all results of the numerical routines and of the random samples", "why_tests_cant": "representations and results of the optimiser range over infinite sets; the code only checks the generators", "anchors": ["escnn/group/_numerical.py:82-422", "escnn/group/_numerical.py:465-806", "escnn/group/irrep.py:234-276", "escnn/group/representation.py:460-511"]}
{"id": "C84", "title": "Numerically computed Clebsch-Gordan coefficients decompose the tensor product", "statement": "Whenever Group._clebsh_gordan_coeff returns an array, its columns are orthonormal and every copy intertwines the irrep with the tensor product; whenever Group._tensor_product_irreps returns a list, the irreps and multiplicities, together with the coefficients, are a complete orthonormal decomposition of the tensor product. With exact numerical routines both calls succeed for every pair of irreps of a finite group.", "quantifier": "for all groups given by a valid table of irreps, all irreps J, l, j, all numerical routines, all random samples", "why_tests_cant": "Tests draw a few random samples for a few groups and small irreps; the selection of columns depends on which of infinitely many bases of the null space the SVD returns.", "anchors": ["escnn/group/_clebsh_gordan.py:53-166", "escnn/group/_clebsh_gordan.py:173-209", "escnn/group/group.py:749-760"]}
{"id": "C85", "title": "The octahedral group, its irreps and its subgroups", "statement": "The elements of Octahedral() are the 24 rotations which preserve the cube, they form a group generated by generators, and membership accepts exactly their quaternions. irrep(l) succeeds for -1 <= l <= 3 and gives five pairwise inequivalent orthogonal irreps of real type which are all the irreps; standard_representation() is the rotation matrix; the numerical Clebsch-Gordan coefficients decompose every tensor product. subgroup((False, n, adj)) gives an injective homomorphism of C_n onto the rotations around the axis turned by adj, and a map back which is its inverse and gives None exactly outside of the image. The quotients named cube_vertices, cube_faces and cube_edges are the actions on the vertices, the faces and the edges of the cube; restrictions name existing irreps. _is_axis_aligned(v, n), n = 2, 3, 4, is true exactly if the rotation by 2 pi / n around v is an element; other orders raise ValueError.", "quantifier": "all elements and both quaternions of each, all orders of iteration, all pairs of irreps, all subgroup ids and adjoint elements, all random samples", "why_tests_cant": "the sign of a quaternion, the order of iteration over sets, the numeric samples and the adjoint elements give far more executions than tests visit; completeness of the irreps is not a statement about samples", "anchors": ["escnn/group/groups/octa.py:30-283", "escnn/group/groups/octa.py:285-620"]}
{"id": "C86", "title": "Parameters of the kernel bases computed by the convolutions", "statement": "compute_basis_params of the convolutions and point convolutions returns the rings given or, by default, the multiples of the dilation up to half the kernel; one width per ring; a filter which keeps exactly the elements which pass the custom filter and whose frequency is at most the cut-off of their ring; and as maximum frequency the largest cut-off rounded down. The default parameters are accepted. Rings outside of the kernel, unknown names of cut-offs and incomplete arguments of point convolutions are errors. The cut-off of a ring depends on the ring relative to the dilation only.", "quantifier": "all kernel sizes, dilations, rings, widths, cut-off policies, custom filters and attributes", "why_tests_cant": "the cut-offs are functions of real radii and integers without a bound, and an aliasing kernel is still equivariant up to the error which tests tolerate", "anchors": ["escnn/nn/modules/conv/r2convolution.py:380-528", "escnn/nn/modules/conv/r3convolution.py:373-521", "escnn/nn/modules/pointconv/r2_point_convolution.py:171-247"]}
{"id": "C87", "title": "Grids on the sphere", "statement": "The grids healpix, Fibonacci and longitude-latitude consist of distinct points of the unit sphere, in the number given by their parameters; the constructor of a grid never fails for a valid parameter; the elements of SO(3) returned by sphere_grid, and those of O(3), are valid elements which send the pole to the points of the grid, one for each point in order; find_rotation_pole2point returns a rotation which sends the pole to the given point normalised.", "quantifier": "all grid parameters, all orthogonal matrices given as adj, all lists of points, all non-zero points", "why_tests_cant": "the parameters have no bound, the special case at the poles has measure zero, and a set of representatives with the wrong sign gives the same set of points up to the antipodal map", "anchors": ["escnn/group/groups/so3_utils.py:249-459", "escnn/group/groups/so3group.py:202-266", "escnn/group/groups/o3group.py:325-387"]}
{"id": "C88", "title": "Regular grids of planar groups and sampling of band-limited functions", "statement": "The regular grid of SO(2) or O(2) with N elements is a finite subgroup, without repetitions, consisting of valid elements; the regular grid of a dihedral group exists exactly if the number divides the order and is a subgroup; the grid of a product is the product of the grids. The Fourier nonlinearity with such a grid is exactly equivariant under its elements. Sampling on the grid loses no frequency l with 2 l < N: with the identity as pointwise function the Fourier nonlinearity multiplies its input by one positive constant; for 2 l = N the component of the sine is lost.", "quantifier": "all sizes of grids, all lists of irreps, all pointwise functions, all inputs", "why_tests_cant": "sizes and frequencies have no bound; equivariance is tested on a few elements with a tolerance which hides aliasing; loss of a component at the bound is visible only for the exact size", "anchors": ["escnn/group/groups/so2group.py:221-249", "escnn/group/groups/o2group.py:266-325", "escnn/group/groups/dihedralgroup.py:352-366", "escnn/group/directproduct.py:390-441", "escnn/nn/modules/nonlinearities/fourier.py:17-190"]}
{"id": "C89", "title": "The icosahedral group and its irreps", "statement": "The 60 elements of the icosahedral group are pairwise different and form a group of rotations, generated by the two generators of order 5 and 2. Irreps are built exactly for the ids 0 to 4: the construction from the images of the generators never fails an assertion, whatever the order of iteration over sets; the irreps are orthogonal representations of real type of dimension 1, 3, 5, 3, 4, pairwise inequivalent, and all the irreps. The numerical Clebsch-Gordan coefficients decompose every tensor product. The standard representation is the rotation matrix. Membership accepts exactly the unit quaternions, of either sign, of the elements, and the group is a subgroup of SO(3) with exact inclusion and restriction maps.", "quantifier": "all elements and pairs of elements, all ids (integers), all orders of iteration over sets, all exact numerical routines and random samples", "why_tests_cant": "tests compare products of matrices in floating point for sampled pairs; completeness and irreducibility are statements about all intertwiners, and the order of iteration over sets changes between runs", "anchors": ["escnn/group/groups/ico.py:22-174", "escnn/group/groups/ico.py:335-503", "escnn/group/groups/ico.py:671-745", "escnn/group/groups/ico.py:506-591"]}
{"id": "C90", "title": "The subgroups of the icosahedral group", "statement": "The ids (False, n, adj) with n = 2, 3, 5 name the cyclic groups of the rotations by multiples of 2 pi / n around the axes Z, (1, 1, 1) and (phi, 0, 1) turned by the inverse of adj. The inclusion succeeds for every element, is an injective homomorphism, and the map to the subgroup returns the element whose inclusion is the given rotation, or None exactly when there is none. (True, 1) is the half turn around X; (False, 1) is the trivial subgroup; 'ico' is the whole group with conjugation by adj. Other ids raise. The cosets of the three cyclic subgroups are the vertices, faces and edges of the icosahedron. For every adjoint element adj, _restrict_irrep returns an orthogonal change of basis and irreps with irrep(parent(h)) = Q @ blockdiag(irreps(h)) @ Q.T on the conjugated subgroup, provided the numerical routine does so on the subgroup which is not conjugated.", "quantifier": "all elements of the group given by either unit quaternion, all adjoint elements, all ids, all choices of sign of scipy's as_quat", "why_tests_cant": "tests use the elements of the list of the group, whose stored quaternions have one sign; the sign after a product or an inverse depends on the history of the element", "anchors": ["escnn/group/groups/ico.py:200-298", "escnn/group/groups/ico.py:385-410", "escnn/group/groups/ico.py:600-659"]}
{"id": "C91", "title": "Delta-orthogonal initialisation", "statement": "deltaorthonormal_init raises AssertionError unless the tensor has the length of the basis and, for every irrep, each of its input positions is mapped to each of its output positions by the same positive number of weights with radius 0 (or without radius). Otherwise every weight which maps an irrep to another one, or whose radius is not 0, becomes 0, and the weights of each irrep at radius 0 form a map with orthonormal columns (if the irrep has at least as many output as input positions) and with orthonormal rows (if it has at most as many).", "quantifier": "all lists of attributes of the basis, all lengths, all orthogonal matrices which ortho_group.rvs may return, all noise without zeros", "why_tests_cant": "orthonormality has to hold for every irrep, every number of positions and every random draw; tests see single draws of single layers", "anchors": ["escnn/nn/init.py:87-162"]}
{"id": "C92", "title": "Optimised grids (Thomson problem)", "statement": "_thomson_sphere, _thomson_so3, _thomson_cube_sphere and _thomson_cube_so3 return the visited array with the least potential; its points have length 1, its potential is less than the square of their number, and different points stay apart (for quaternions up to the sign). The points of the cube variants are permuted by the rotations of the cube. The outer functions return the attempt with the least potential. Unknown optimisers raise ValueError, and N = 0 raises TypeError.", "quantifier": "all N, all initial arrays, all sequences of steps of the optimiser, all attempts, CPU and GPU", "why_tests_cant": "the results are cached and depend on random starts; that best_X follows the array which is still being optimised is visible only if the last step is not the best one", "anchors": ["escnn/group/groups/_numerical_thomson.py:1-531"]}
{"id": "C93", "title": "Diagonal subgroup of a double group", "statement": "double_group(G).subgroup('diagonal') is G, with the inclusion g -> (g, g), an injective homomorphism, and a restriction which inverts it and is None exactly for the pairs of different elements. Other strings raise AssertionError, pairs of ids are passed to the direct product, and _combine_subgroups raises NotImplementedError.", "quantifier": "all groups whose equality is exact, all elements; C_N and D_N for all N", "why_tests_cant": "the maps have to be right for every pair of elements of every group", "anchors": ["escnn/group/doublegroup.py:98-160"]}
{"id": "C94", "title": "Irreps of bounded frequency", "statement": "bl_irreps(L) of SO(2), SO(3), O(2), O(3), C_N and D_N lists exactly the ids of the irreps of the group of frequency at most L, each once, and raises AssertionError if L is negative or, for C_N and D_N, larger than N // 2. The band-limited regular representation of SO(2) contains every irrep of frequency at most L once, that of O(2) every one as often as its dimension.", "quantifier": "all integers L, all N >= 1", "why_tests_cant": "the lists have to be complete and without repetition for every L and N; the extra irrep of D_N appears only for even N and the largest L", "anchors": ["escnn/group/groups/so2group.py:384-411", "escnn/group/groups/so3group.py:796-803", "escnn/group/groups/o2group.py:543-564", "escnn/group/groups/o2group.py:605-615", "escnn/group/groups/o3group.py:1114-1124", "escnn/group/groups/cyclicgroup.py:454-461", "escnn/group/groups/dihedralgroup.py:518-541"]}
