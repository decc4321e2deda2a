{"claims": [
 {"property": "C01", "status": "proved", "theorems": ["Escnn.Cyclic.C01_cyclic_group_laws", "Escnn.Cyclic.C01_cyclic_iso_zmod", "Escnn.Cyclic.C01_cyclic_generators", "Escnn.Cyclic.C01_cyclic_equal", "Escnn.Cyclic.C01_cyclic_grid"], "note": "all N"},
 {"property": "C02", "status": "proved", "theorems": ["Escnn.Dihedral.C02_dihedral_group_laws", "Escnn.Dihedral.C02_dihedral_iso_mathlib", "Escnn.Dihedral.C02_dihedral_generators", "Escnn.Dihedral.C02_dihedral_equal"], "note": "all N"},
 {"property": "C03", "status": "proved", "theorems": ["Escnn.SO2.C03_so2_laws", "Escnn.SO2.C03_so2_iso_angle", "Escnn.O2.C03_o2_iso_matrix", "Escnn.O2.C03_o2_laws"], "note": "exact-real angles"},
 {"property": "C04", "status": "partial", "theorems": ["Escnn.C04_product_laws_partial", "Escnn.C04_inclusions_partial", "Escnn.C04_cyclic_dihedral", "Escnn.C04_left_nested", "Escnn.C04_right_nested_violated", "Escnn.Cyclic.C04_subgroup_partial", "Escnn.Cyclic.C04_subgroup_intended", "Escnn.Cyclic.C04_subgroup_violated", "Escnn.Cyclic.C04_subgroup_violated'", "Escnn.C04_param_names", "Escnn.C04_left", "Escnn.C04_right", "Escnn.Cyclic.C04_sides"], "note": "Group laws, inclusions, projections and enumeration hold for every product whose parametrisation name is split correctly; a product whose second factor is a product is broken (C04_right_nested_violated), and the restriction map of product subgroups uses child2 twice (C04_subgroup_violated).; Subgroups of one factor are correct (C04_left, C04_right, C04_sides)."},
 {"property": "C05", "status": "proved", "theorems": ["Escnn.Cyclic.C05_cyclic_subgroup", "Escnn.Cyclic.C05_rejects"], "note": "all N, M"},
 {"property": "C06", "status": "partial", "theorems": ["Escnn.Dihedral.C06_dihedral_subgroup_partial", "Escnn.Dihedral.C06_dihedral_subgroup_iff", "Escnn.Dihedral.C06_violated"], "note": "code accepts axis >= N/M, where the maps raise; exact characterisation of when the property holds, and a witness of the violation"},
 {"property": "C07", "status": "partial", "theorems": ["Escnn.SO2.C07_so2_cyclic", "Escnn.SO2.C07_so2_child_tolerance", "Escnn.SO2.C07_so2_child_raises", "Escnn.O2.C07_o2_so2", "Escnn.O2.C07_o2_cyclic", "Escnn.O2.C07_o2_flip", "Escnn.O2.C07_o2_self", "Escnn.O2.C07_o2_dn_partial", "Escnn.O2.C07_o2_dn_iff", "Escnn.O2.C07_o2_dn_violated"], "note": "holds for every family except D_M with axis >= 2pi/M, where the child map drops every reflection (exact characterisation and witness proved); child map of SO(2) raises on angles just below 2pi"},
 {"property": "C08", "status": "partial", "theorems": ["Escnn.C08_cyclic", "Escnn.Dihedral.C08_dihedral_rot", "Escnn.Dihedral.C08_dihedral_flip", "Escnn.Dihedral.C08_dihedral_dih", "Escnn.O2.C08_o2_rot", "Escnn.O2.C08_o2_so2", "Escnn.O2.C08_o2_flip", "Escnn.O2.C08_o2_dih", "Escnn.O2.C08_o2_self_partial", "Escnn.O2.C08_o2_self_violated", "Escnn.O2.C08_o2_drop_axis"], "note": "O(2)->O(2)->: the combined axis can exceed 2pi and is then rejected; witness proved"},
 {"property": "C09", "status": "proved", "theorems": ["Escnn.Cyclic.C09_cyclic_irrep", "Escnn.Cyclic.C09_character_orthogonality", "Escnn.Cyclic.C09_dimension_count"], "note": "all N, k"},
 {"property": "C10", "status": "proved", "theorems": ["Escnn.Dihedral.C10_dihedral_irrep", "Escnn.Dihedral.C10_character_orthogonality", "Escnn.Dihedral.C10_dimension_count", "Escnn.Dihedral.C10_ids"], "note": "all N, j, k"},
 {"property": "C11", "status": "proved", "theorems": ["Escnn.C11_so2_irrep", "Escnn.C11_o2_irrep", "Escnn.C11_o2_characters_distinct"], "note": "all frequencies"},
 {"property": "C12", "status": "proved", "theorems": ["Escnn.Cyclic.C12_cyclic", "Escnn.SO2.C12_so2", "Escnn.Dihedral.C12_dihedral_rot", "Escnn.Dihedral.C12_dihedral_flip", "Escnn.Dihedral.C12_dihedral_dih", "Escnn.O2.C12_o2_so2", "Escnn.O2.C12_o2_rot", "Escnn.O2.C12_o2_flip", "Escnn.O2.C12_o2_self", "Escnn.O2.C12_o2_dih"], "note": "C_N, D_N, SO(2), O(2); all irreps, all accepted subgroup ids"},
 {"property": "C13", "status": "proved", "theorems": ["Escnn.C13_restrict", "Escnn.C13_cyclic", "Escnn.C13_dihedral_rot", "Escnn.C13_dihedral_flip", "Escnn.C13_dihedral_dih", "Escnn.C13_so2", "Escnn.C13_o2_so2", "Escnn.C13_o2_rot", "Escnn.C13_o2_flip", "Escnn.C13_o2_dih", "Escnn.C13_o2_self"], "note": ""},
 {"property": "C14", "status": "partial", "theorems": ["Escnn.C14_wf_is_representation", "Escnn.C14_constructor", "Escnn.C14_constructor_rejects", "Escnn.C14_constructor_size_violated", "Escnn.C14_directsum", "Escnn.C14_directsum_plain", "Escnn.C14_directsum_rejects", "Escnn.C14_change_basis"], "note": "The constructor does not check the size of an identity change of basis for a single irrep (C14_constructor_size_violated); everything else is proved."},
 {"property": "C15", "status": "proved", "theorems": ["Escnn.Cyclic.C15_cyclic", "Escnn.SO2.C15_so2"], "note": ""},
 {"property": "C16", "status": "proved", "theorems": ["Escnn.C16_regular_sound", "Escnn.C16_regular_partial", "Escnn.Cyclic.C16_cyclic", "Escnn.Dihedral.C16_dihedral"], "note": "C16_regular_sound: for every finite group with orthogonal irreps, whenever regular_representation returns, it is left multiplication (permutation matrix), a homomorphism, with the regular character. Success is proved for C_N and D_N of every order; for other groups success is conditional on RegularData (C16_regular_partial)."},
 {"property": "C17", "status": "proved", "theorems": ["Escnn.C17_induced_sound", "Escnn.C17_induced_finite", "Escnn.C17_default_representatives", "Escnn.C17_quotient_permutes", "Escnn.Cyclic.inducedData"], "note": "Soundness: whenever the construction returns, the matrices are those of the induced representation for the given representatives, for any group/subgroup/irrep; finite groups need no completeness hypothesis. Induction from reducible representations is rejected by the code. That the asserted orthogonality always holds (Frobenius reciprocity, completeness of the irreps) is not proved."},
 {"property": "C18", "status": "proved", "theorems": ["Escnn.C18_endo_orthogonal", "Escnn.Cyclic.C18_cyclic", "Escnn.SO2.C18_so2", "Escnn.Dihedral.C18_dihedral", "Escnn.O2.C18_o2", "Escnn.C18_real_type", "Escnn.C18_homomorphism_space", "Escnn.C18_quaternions"], "note": "Count, shape and orthogonality for all types and sizes; commutation for all irreps of C_N, D_N, SO(2), O(2); homomorphism_space / Representation.endomorphism_basis intertwine, have the right dimension and are linearly independent for every group whose irreps' endomorphism bases commute."},
 {"property": "C19", "status": "proved", "theorems": ["Escnn.C19_disentangle"], "note": "connected_components of SciPy enters through its contract (IsComponents)."},
 {"property": "C20", "status": "proved", "theorems": ["Escnn.C20_generators_complete", "Escnn.C20_generators_sound", "Escnn.C20_generators_unique"], "note": "Set iteration order is arbitrary; termination within order+1 rounds is part of the statement."},
 {"property": "C21", "status": "partial", "theorems": ["Escnn.C21_cyclic_partial", "Escnn.C21_cyclic_mat_exact", "Escnn.C21_cyclic_violated", "Escnn.C21_dihedral_partial", "Escnn.C21_dihedral_violated", "Escnn.C21_so2", "Escnn.C21_o2", "Escnn.C21_mat_faithful"], "note": "int and radians round-trip for C_N, D_N; SO(2), O(2) fully; the MAT parametrisation of C_N, D_N is wrong (sine computed as A[1,0]-A[1,0]), exact set of surviving elements proved"},
 {"property": "C22", "status": "partial", "theorems": ["Escnn.C22_memo", "Escnn.C22_by_id", "Escnn.C22_history_dependence", "Escnn.C22_cyclic_quotient_partial", "Escnn.C22_representatives_violated", "Escnn.C22_kernel_basis_partial", "Escnn.C22_names_violated"], "note": "subgroup and restrict caches proved; quotient/induced with default arguments proved for C_N; violated for explicit representatives and for representations sharing a name"},
 {"property": "C23", "status": "proved", "theorems": ["Escnn.FType.C23_fields", "Escnn.FType.C23_partition", "Escnn.FType.C23_irreps", "Escnn.FType.C23_add", "Escnn.FType.C23_index_select"], "note": "All field types: field offsets tile the channels, irreps concatenate, + concatenates, index_select picks the listed fields."},
 {"property": "C24", "status": "partial", "theorems": ["Escnn.FType.C24_sorted", "Escnn.FType.C24_group_by_labels", "Escnn.FType.C24_labels_partition", "Escnn.FType.C24_restrict_partial", "Escnn.FType.C24_restrict_violated"], "note": "Sorting and grouping hold for all inputs. restrict needs distinct representations to have distinct names: the code keys its dictionary by name, and C24_restrict_violated exhibits the failure otherwise."},
 {"property": "C25", "status": "proved", "theorems": ["Escnn.C25_fieldwise", "Escnn.C25_action", "Escnn.C25_representation"], "note": "transform_fibers of any field type of well-formed representations."},
 {"property": "C26", "status": "partial", "theorems": ["Escnn.GTensor.C26_split", "Escnn.GTensor.C26_directsum_rejects", "Escnn.GTensor.C26_split_default_violated", "Escnn.GTensor.C26_split_mutates_violated", "Escnn.GTensor.C26_getitem_partial", "Escnn.GTensor.C26_getitem_violated", "Escnn.GTensor.C26_slice_clamp_violated", "Escnn.GTensor.C26_ellipsis"], "note": "split/directsum for every list of breaks; directsum rejects tensors with another gspace or other coordinates; indexing sound for every int >= -len, slice, mask, index tensor. Violations exhibited: breaks=None always raises, split mutates the caller's list, int < -len returns another field, out-of-range slice bounds raise."},
 {"property": "C27", "status": "proved", "theorems": ["Escnn.GTensor.C27_add", "Escnn.GTensor.C27_sub", "Escnn.GTensor.C27_mul", "Escnn.GTensor.C27_rejects", "Escnn.GTensor.C27_inplace"], "note": "In-place operations are modelled on a memory of storages, so aliasing operands are covered. Integer scalars raise TypeError."},
 {"property": "C28", "status": "proved", "theorems": ["Escnn.C28_reshuffle", "Escnn.C28_branching", "Escnn.C28_merge", "Escnn.C28_multiple", "Escnn.C28_reshuffle_equivariant", "Escnn.C28_branching_equivariant", "Escnn.C28_multiple_equivariant", "Escnn.C28_reshuffle_repeated", "Escnn.C28_merge_tuple_first"], "note": "Submodules enter through the contract Sound/Equivariant; spatial resampling is channelwise and commutes with selections (IsSelection.mapP). Also shown: lists with repetitions are accepted as permutations; MergeModule fails when its first submodule has several inputs."},
 {"property": "C29", "status": "proved", "theorems": ["Escnn.C29_indexes", "Escnn.C29_indexes_rejects", "Escnn.C29_slice", "Escnn.checkConsecutive_iff", "Escnn.C29_repeated_violated"], "note": "indexes_from_labels with check_consecutive_numbers; the contiguity flag is correct on the strictly increasing index lists it is called with; on lists with repetitions check_consecutive_numbers itself is wrong (witness)."},
 {"property": "C30", "status": "partial", "theorems": ["Escnn.Seq.C30_init", "Escnn.Seq.C30_forward", "Escnn.Seq.C30_composition", "Escnn.Seq.C30_equivariant", "Escnn.Seq.C30_outShape", "Escnn.Seq.C30_index", "Escnn.Seq.C30_slice", "Escnn.Seq.C30_append", "Escnn.Seq.C30_append_partial", "Escnn.Seq.C30_append_violated"], "note": "Everything is proved except that append extends the list for every object: append uses the name str(len), which slices may already contain; the counterexample s[1:].append(d) is proved."},
 {"property": "C31", "status": "partial", "theorems": ["Escnn.C31_restriction_partial", "Escnn.C31_restrict_representation", "Escnn.C31_disentangle_spec", "Escnn.C31_disentangle_partial", "Escnn.C31_disentangle_violated"], "note": "Proved when different representations of the input type have different names. With a shared name the disentangle module applies one change of basis to both fields: C31_disentangle_violated."},
 {"property": "C32", "status": "proved", "theorems": ["Escnn.Blocks.C32_weight_ranges", "Escnn.Blocks.C32_sorted", "Escnn.Blocks.C32_set_order", "Escnn.Sampler.C32_sorted"], "note": "all bases, filters, types and names; the blocks of weights are in the order of the pairs of names, whatever the order in which Python iterates over the sets"},
 {"property": "C33", "status": "partial", "theorems": ["Escnn.C33_block", "Escnn.Blocks.C33_weight_info_partial", "Escnn.Sampler.C33_sampler_info_partial", "Escnn.Blocks.C33_violated_names"], "note": "proved for SingleBlockBasisExpansion, for BlocksBasisExpansion with distinct escaped names and for BlocksBasisSampler with distinct names; violated if two names differ only by '.' against '^' (theorem); a sampler rejects names with a dot (C62_dot_violation)"},
 {"property": "C34", "status": "partial", "theorems": ["Escnn.Blocks.C34_filter_partial", "Escnn.Blocks.C34_equivariant_partial", "Escnn.Blocks.C34_wrong_length", "Escnn.Blocks.C34_violated_empty", "Escnn.Blocks.C34_violated_names"], "note": "proved with distinct escaped names, and a non-empty basis if there is one representation on both sides; both conditions are needed (theorems)"},
 {"property": "C35", "status": "proved", "theorems": ["Escnn.WE.C35_wigner_eckart", "Escnn.WE.C35_so2", "Escnn.WE.C35_cyclic"], "note": "for every group with orthogonal irreps, commuting endomorphisms and intertwining Clebsch-Gordan coefficients; these hypotheses are discharged for SO(2) and the cyclic groups; the number of solutions is also proved"},
 {"property": "C36", "status": "proved", "theorems": ["Escnn.RWE.C36_restricted", "Escnn.RWE.C36_from_group", "Escnn.RWE.C36_so2_cyclic"], "note": "as C35, for subgroups with well-formed restrictions (C13); all hypotheses but the steerability of the filters are discharged for SO(2) -> C_N"},
 {"property": "C37", "status": "proved", "theorems": ["Escnn.WE.C37_wigner_eckart", "Escnn.RWE.C37_restricted", "Escnn.SKB.C37_steerable", "Escnn.SKB.C37_steerable_so2", "Escnn.Union.C37_union", "Escnn.Sparse.C37_sparse", "Escnn.Sparse.C37_sparse_attrs", "Escnn.C37_point", "Escnn.C37_point_total", "Escnn.Sparse.C37_sparse_scale", "Escnn.Sparse.C37_sparse_weight"], "note": "Wigner-Eckart, restricted Wigner-Eckart, steerable, union, sparse and point bases; the shells bases are C40."},
 {"property": "C38", "status": "proved", "theorems": ["Escnn.SKB.C38_steerable_kernel_basis", "Escnn.SKB.C38_wigner_eckart", "Escnn.SKB.C38_so2", "Escnn.SKB.C38_cyclic", "Escnn.SKB.C38_restricted"], "note": "For any field types, with the solver modelled as code; also end to end for SO(2) and C_N and for restricted bases."},
 {"property": "C39", "status": "proved", "theorems": ["Escnn.C39_action", "Escnn.C39_circular_harmonics", "Escnn.C39_origin", "Escnn.C39_steerable"], "note": "The circular harmonics transform with the O(2) irreps under the declared action for every axis, radius and frequency; the whole basis with the Gaussian radial part is steerable."},
 {"property": "C40", "status": "partial", "theorems": ["Escnn.Shells.C40_iter", "Escnn.Shells.C40_steerable", "Escnn.Shells.C40_steerable_iter_partial", "Escnn.Shells.C40_steerable_attrs_partial", "Escnn.Shells.C40_getitem_spherical", "Escnn.Shells.C40_violated_getitem_circular", "Escnn.Shells.C40_violated_steerable_attrs", "Escnn.Shells.C40_violated_filter", "Escnn.Shells.C40_violated_radial"], "note": "Layout and iteration proved with and without filters; __getitem__ of the circular basis and the steerable attribute lookups violate the claim, with witnesses."},
 {"property": "C41", "status": "proved", "theorems": ["Escnn.Bias.C41_invariant", "Escnn.Bias.C41_complete", "Escnn.C41_so2", "Escnn.C41_o2", "Escnn.C41_cyclic", "Escnn.C41_dihedral"], "note": "The expanded bias is fixed by every representation of the output type for all weights, and every invariant vector is the bias of exactly one weight vector; the absence of other invariant irreps is proved for SO(2), O(2), C_N and D_N."},
 {"property": "C42", "status": "partial", "theorems": ["Escnn.Linear.C42_equivariant_partial", "Escnn.C42_so2_partial", "Escnn.C42_cyclic_partial", "Escnn.Linear.C42_violated_empty"], "note": "Proved end to end (kernel basis, expansion, bias, forward, train/eval) for every group with a lawful irrep table and Clebsch-Gordan coefficients, in particular SO(2) and C_N.  Missing: types in which two representations share an escaped name (see C34), and the layer with a single pair of representations and no intertwiner, whose forward pass raises IndexError (C42_violated_empty)."},
 {"property": "C43", "status": "proved", "theorems": ["Escnn.C43_grid", "Escnn.C43_conv", "Escnn.RdConv.C43_module", "Escnn.RdConv.C43_plane", "Escnn.RdConv.C43_cyclic", "Escnn.RdConv.C43_dihedral"], "note": "C43_conv is the claim for every steerable filter; the C43_* of RdConv carry it from the circular harmonics through the basis expansion to forward, for every weight vector, padding mode, dilation and number of groups. Strides must divide the range of the kernel. The module theorems assume escaped representation names distinguish representations (violated otherwise, see C34); for dihedral groups the numerically computed Clebsch-Gordan coefficients are assumed to intertwine."},
 {"property": "C44", "status": "proved", "theorems": ["Escnn.NdArr.C44_pixels", "Escnn.NdArr.C44_action", "Escnn.NdArr.C44_exact", "Escnn.O2.signedPerm", "Escnn.Cyclic.signedPerm", "Escnn.Dihedral.signedPerm"], "note": "For arrays of any dimension and sizes and for every signed permutation matrix, in particular all elements of C_4 and D_4 and the multiples of 90 degrees of O(2).  The rounding of the matrix to float16 is not modelled."},
 {"property": "C45", "status": "partial", "theorems": ["Escnn.Layer.C45_current_partial", "Escnn.Layer.C45_linear_eval", "Escnn.Layer.C45_conv_eval", "Escnn.Layer.C45_training", "Escnn.Layer.C45_violated_update", "Escnn.Layer.C45_violated_eval_again", "Escnn.Layer.C45_violated_load", "Escnn.C45_linear_model", "Escnn.Layer.C45_training_dict"], "note": "For every history it is proved with which weights a layer in evaluation mode computes.  The property as stated is violated: by weight updates in evaluation mode (also followed by another eval() for convolutions) and by loading the state dictionary of a layer which still holds the zeros of the constructor; it holds for histories without those."},
 {"property": "C46", "status": "partial", "theorems": ["Escnn.RdConv.C46_conv_partial", "Escnn.RdConv.C46_conv_trained_partial", "Escnn.RdConv.C46_circular_violated", "Escnn.RdConvT.C46_transposed_partial", "Escnn.RdConvT.C46_output_padding_violated", "Escnn.PointwisePool.C46_maxpool_partial", "Escnn.PointwisePool.C46_ceil_iff", "Escnn.C46_ceil_violated", "Escnn.AdaptivePool.C46_adaptive_max", "Escnn.AdaptivePool.C46_adaptive_avg", "Escnn.Linear.C46_linear", "Escnn.PointwiseNL.C46_pointwise", "Escnn.PoolMap.C46_gpool", "Escnn.IIDBatchNorm.C46_iid", "Escnn.InnerBatchNorm.C46_inner_partial", "Escnn.InnerBatchNorm.C46_inner_dim0_violated", "Escnn.GNormBatchNorm.C46_gnorm_partial", "Escnn.GNormBatchNorm.C46_gnorm_dims_violated", "Escnn.Seq.C46_sequential", "Escnn.Upsampling.C46_upsampling", "Escnn.C46_identity", "Escnn.C46_restriction", "Escnn.C46_dropout"], "note": "export loses padding_mode, output_padding and ceil_mode, InnerBatchNorm without spatial axes and GNormBatchNorm on images disagree with their exports (violations proved); in the other cases, for every module which defines export, the exported module computes the same on all inputs"},
 {"property": "C47", "status": "partial", "theorems": ["Escnn.RdConv.C47_conv", "Escnn.RdConv.init_axes", "Escnn.RdConv.C47_conv_tuple", "Escnn.conv_tuple_violation", "Escnn.RdConvT.C47_transposed", "Escnn.RdConvT.init_axes", "Escnn.RdConvT.C47_transposed_tuple", "Escnn.PointwisePool.C47_maxpool_iff", "Escnn.PointwisePool.C47_maxpool_partial", "Escnn.ceil_violation", "Escnn.PointwisePool.C47_avgpool_iff", "Escnn.PointwisePool.C47_avgpool_partial", "Escnn.AntialiasedPool.C47_antialiased_avg", "Escnn.AntialiasedPool.forwardMax_shape", "Escnn.AntialiasedPool.C47_antialiased_max_partial", "Escnn.antialiased_violation", "Escnn.AdaptivePool.C47_adaptive_max", "Escnn.AdaptivePool.C47_adaptive_avg", "Escnn.NormMaxPool.C47_normmax", "Escnn.NormMaxPool.C47_normmax_raises", "Escnn.normmax_violation", "Escnn.Upsampling.C47_upsampling", "Escnn.RdConv.C47_conv_padding", "Escnn.RdConvT.C47_transposed_padding"], "note": "Proved for all sizes, strides, dilations, groups, modes for convolutions and transposed convolutions with integer paddings, adaptive poolings, upsampling, antialiased average pooling, and for max/average pooling with an exact criterion in ceil_mode. The full statement is false of the code: a tuple as padding makes evaluate_output_shape raise TypeError; in ceil_mode the last window may be dropped by PyTorch (ceil_violation); antialiased max pooling pads twice (antialiased_violation); NormMaxPool ignores ceil_mode and its forward raises (normmax_violation)."},
 {"property": "C48", "status": "proved", "theorems": ["Escnn.PointwiseNL.C48_equivariant", "Escnn.PointwiseNL.C48_transform", "Escnn.PointwiseNL.C48_init", "Escnn.PointwiseNL.C48_init_type", "Escnn.PointwiseNL.C48_modules", "Escnn.PointwiseNL.C48_regular", "Escnn.PointwiseNL.C48_quotient", "Escnn.PointwiseNL.C48_necessary", "Escnn.PointwiseNL.C48_not_permutation"], "note": "Every function, permutation type, input and element; on fibres and (for elements preserving the grid) with transform on feature maps. Regular and quotient representations are shown to be permutations. Necessity: only 0/1 selection rows work for all functions; relu with the sign representation fails. Covers PointwiseNonLinearity, ReLU, LeakyReLU and ELU (they share forward); C48_modules: which types these constructors accept and which function they apply."},
 {"property": "C49", "status": "proved", "theorems": ["Escnn.NormNL.C49_equivariant", "Escnn.NormNL.C49_rescales", "Escnn.NormNL.C49_init"], "note": "All orthogonal types, functions (each real function), biases, eps, inputs, elements, and contents of the uninitialised buffer. C49_rescales gives the exact multiplier and shows that every field uses its own entry of log_bias."},
 {"property": "C50", "status": "proved", "theorems": ["Escnn.GatedNL.C50_gates", "Escnn.GatedNL.C50_equivariant", "Escnn.GatedNL.C50_init", "Escnn.GatedNL.C50_default", "Escnn.GatedNL2.C50_two_inputs", "Escnn.GatedUniform.C50_uniform"], "note": "GatedNonLinearity1 (gates in the same tensor, dropped or kept), GatedNonLinearity2 (gates in another tensor) and GatedNonLinearityUniform. Representations are well formed (Rep.WF) over a valid table of irreps with a trivial irrep; each gate multiplies exactly one gated field."},
 {"property": "C51", "status": "proved", "theorems": ["Escnn.InducedNormNL.C51_equivariant", "Escnn.InducedNormNL.C51_rescales", "Escnn.PoolMap.C51_pool_values", "Escnn.PoolMap.C51_pool", "Escnn.InducedGated.C51_gated", "Escnn.C51_subSize", "Escnn.C51_flags", "Escnn.C51_gated_subgroups_violated"], "note": "For every type whose matrices permute blocks of the flagged size by orthogonal blocks, InducedNormNonLinearity is equivariant and InducedNormPool is invariant. InducedGatedNonLinearity1 is equivariant when gates and gated fields are permuted by the same coset permutation; with different subgroups of the same index it is accepted but not equivariant (C51_gated_subgroups_violated). C51_subSize: the size is read from the one name with the prefix. C51_flags: the flags written by Group._induced_nonlinearities are read back as the size of the inducing representation."},
 {"property": "C52", "status": "proved", "theorems": ["Escnn.C52_accepts", "Escnn.C52_only_signed", "Escnn.C52_perm", "Escnn.C52_representation", "Escnn.ConcatNL.C52_equivariant", "Escnn.ConcatNL.C52_init", "Escnn.ConcatNL.C52_transform"], "note": "For every finite group and every type the constructor accepts; the function is arbitrary. decompose_representation_finitegroup enters only through the size of the change of basis it returns; a representation already registered in the group under the name concatenated_<name> is returned unchecked by the code and excluded by the hypothesis Good.fresh."},
 {"property": "C53", "status": "proved", "theorems": ["Escnn.Fourier.C53_equivariant", "Escnn.Fourier.C53_init", "Escnn.Fourier.C53_regular_init", "Escnn.Fourier.C53_incomplete_grid"], "note": "Both constructors (out_irreps, normalize, any kernel) and forward are modelled; the regularised inverse is proved to exist; equivariance holds for any function on the samples and any grid which lists each element of the finite group once; C53_incomplete_grid shows that the hypothesis on the grid is needed."},
 {"property": "C54", "status": "partial", "theorems": ["Escnn.VectorField.C54_init", "Escnn.VectorField.C54_values", "Escnn.VectorField.C54_equivariant_partial", "Escnn.VectorField.C54_two_violated", "Escnn.VectorField.C54_ties_violated"], "note": "Proved for all orders N > 2 and all inputs whose fields have a unique maximum or no positive entry, and for N = 2 with one field. Missing: N = 2 with several fields, where forward raises RuntimeError for each input (C54_two_violated). With ties the module is not equivariant (C54_ties_violated)."},
 {"property": "C55", "status": "proved", "theorems": ["Escnn.PoolMap.C55_gpool", "Escnn.PoolMap.C55_norm", "Escnn.PoolMap.C55_gpool_values", "Escnn.PoolMap.C55_norm_values", "Escnn.PoolMap.C55_init", "Escnn.C55_norm_not_orthogonal_violated"], "note": "GroupPooling for permutation representations and NormPool for orthogonal ones: the output is the maximum (norm) of each field, unchanged by the action, for each order of fields and content of the uninitialised memory. NormPool accepts non-orthogonal representations; a witness shows that its output then changes."},
 {"property": "C56", "status": "partial", "theorems": ["Escnn.IIDBatchNorm.C56_iid_partial", "Escnn.IIDBatchNorm.C56_iid_not_orthogonal_violated", "Escnn.NormBatchNorm.C56_norm_partial", "Escnn.NormBatchNorm.C56_norm_not_orthogonal_violated", "Escnn.InnerBatchNorm.C56_inner_partial", "Escnn.InnerBatchNorm.C56_inner_dim0_violated", "Escnn.GNormBatchNorm.C56_gnorm_partial", "Escnn.GNormBatchNorm.C56_gnorm_axes_violated"], "note": "Every history of calls in training and evaluation mode, every transformed batch. IIDBatchNorm and NormBatchNorm for orthogonal representations (violated for others, which the constructors accept), InnerBatchNorm for permutation matrices on spaces of dimensionality 1 to 3 (raises for dimensionality 0), GNormBatchNorm for all representations on inputs with two spatial axes or without a change of basis (raises otherwise)."},
 {"property": "C57", "status": "partial", "theorems": ["Escnn.FieldNorm.C57_equivariant_partial", "Escnn.FieldNorm.C57_values", "Escnn.FieldNorm.C57_not_orthogonal_violated"], "note": "Proved for all inputs, weights, biases, eps > 0 and every type of orthogonal representations with distinct names (attributes are keyed by name); for a non-orthogonal representation, which the constructor accepts, the property is false: C57_not_orthogonal_violated."},
 {"property": "C58", "status": "partial", "theorems": ["Escnn.FieldDropout.C58_init", "Escnn.FieldDropout.C58_factor_partial", "Escnn.FieldDropout.C58_eval", "Escnn.FieldDropout.C58_inplace_partial", "Escnn.FieldDropout.C58_equivariant", "Escnn.FieldDropout.C58_inplace_violated", "Escnn.PointDropout.C58_pointwise"], "note": "FieldDropout: the factor is common to the entries of a field for every type without inplace, and with inplace when the fields of each size follow each other; otherwise inplace leaves fields unchanged (C58_inplace_violated), so the statement about inplace is false in general. Evaluation mode and PointwiseDropout are covered completely. For p = 1 dropout_field divides 0 by 0, which real numbers do not represent."},
 {"property": "C59", "status": "proved", "theorems": ["Escnn.PointwisePool.C59_max_value", "Escnn.PointwisePool.C59_max", "Escnn.PointwisePool.C59_avg", "Escnn.AntialiasedPool.C59_max", "Escnn.AntialiasedPool.C59_avg", "Escnn.AdaptivePool.C59_max", "Escnn.AdaptivePool.C59_avg", "Escnn.NormMaxPool.C59_picks", "Escnn.NormMaxPool.C59_norm"], "note": "Whenever a pooling module accepts a feature map it accepts the feature map with transformed fibres, and the outputs are related by the action. Covers the plain, antialiased, adaptive and average variants in addition to NormMaxPool and PointwiseMaxPool."},
 {"property": "C60", "status": "proved", "theorems": ["Escnn.C60_mask", "Escnn.C60_equivariant"], "note": "All sizes, dimensions and margins, sigma nonzero (sigma = 0 raises ZeroDivisionError); rotations and flips are the elements whose base space matrix is a signed permutation, the ones transform applies exactly."},
 {"property": "C61", "status": "partial", "theorems": ["Escnn.C61_homomorphism", "Escnn.C61_character", "Escnn.C61_decomposition_partial", "Escnn.C61_types", "Escnn.C61_irreducible", "Escnn.C61_inequivalent", "Escnn.C61_so2_so2", "Escnn.C61_quaternionic_violation", "Escnn.C61_real_quaternionic"], "note": "Homomorphisms and characters: all types. Decomposition by the R/C/H rule, exact commutant and irreducibility: all pairs of types except the two where the claim is false. H with H: the irrep returned is reducible (proved). R with H: irreducible, but endomorphism_basis is wrong exactly when the first factor has more than one dimension (proved)."},
 {"property": "C62", "status": "proved", "theorems": ["Escnn.Sampler.C62_orders_agree", "Escnn.Sampler.C62_groups_violation", "Escnn.Sampler.C62_dot_violation"], "note": "All layouts, points, weights, inputs with groups=1 and at least one point. Hypotheses: same name implies same size, names without dots (otherwise the constructor raises KeyError: C62_dot_violation), kernels of the right shape. A single pair with an empty basis raises IndexError in both orders. For groups>=2 the orders differ (C62_groups_violation)."},
 {"property": "C63", "status": "partial", "theorems": ["Escnn.He.C63_variances_partial", "Escnn.He.C63_weight_variance", "Escnn.He.C63_blocks", "Escnn.He.C63_fields_violation"], "note": "Proved for every layout: positive, 1/(inputs_count*basis_count), constant over (input irrep, output irrep position) groups, hence per harmonic of such a pair. Read at the level of field representations the constancy is false: C63_fields_violation gives two weights of the same two fields and the same harmonic with variances 1/4 and 1/8."},
 {"property": "C64", "status": "partial", "theorems": ["Escnn.C64_cyclic", "Escnn.C64_dihedral", "Escnn.C64_octahedral", "Escnn.C64_icosahedral", "Escnn.C64_product", "Escnn.C64_elements", "Escnn.C64_so2_symm_violated", "Escnn.C64_so2_hash_violated", "Escnn.PyId.C64_subgroup_id", "Escnn.PyId.C64_product_subgroup_id_partial", "Escnn.PyId.C64_nested_id_violated", "Escnn.PyId.C64_empty_id_violated", "Escnn.PyId.C64_stored", "Escnn.C64_irrep_id", "Escnn.C64_irrep_name_violated", "Escnn.C64_irrep_ids"], "note": "Equality and hashes proved for the cyclic, dihedral, octahedral, icosahedral groups and products. Ids round-trip except those of nested direct products with elements of a factor of a factor (ValueError) and empty tuples (IndexError); get_irrep_id of a name returns the irrep instead of its id."},
 {"property": "C65", "status": "proved", "theorems": ["Escnn.C65_subgroup", "Escnn.C65_so2", "Escnn.C65_cyclic", "Escnn.C65_dihedral", "Escnn.C65_o2"], "note": "Adjoint=None and max_offset=None. C65_o2 covers kernels_O2_act_R2. For D_N and O(2) the Clebsch-Gordan coefficients computed by the generic numerical solver enter by their contract (they intertwine)."},
 {"property": "C66", "status": "partial", "theorems": ["Escnn.C66_mask", "Escnn.C66_reuse", "Escnn.C66_subgroup_partial", "Escnn.C66_o2_partial", "Escnn.C66_axis_violated"], "note": "Proved for every history in which the bases without a filter have one axis (C66_o2_partial, C66_subgroup_partial); bases with a filter may have any axis, as they are found only by the identity of their tensor _filter (keys whose hashes agree by accident are not modelled). C66_reuse is the general principle. False when the axes differ: CircularShellsBasis.__eq__ and __hash__ ignore the axis, so the filters of another axis are returned and break equivariance (C66_axis_violated)."},
 {"property": "C67", "status": "partial", "theorems": ["Escnn.TensorRep.C67_tensor", "Escnn.TensorRep.C67_flags_partial", "Escnn.TensorRep.C67_cyclic", "Escnn.TensorRep.C67_so2", "Escnn.TensorRep.C67_norm_violated"], "note": "Everything proved for every valid table of irreps with Clebsch-Gordan coefficients satisfying the laws of C15 (instances C_N, SO(2)), except the declared nonlinearities: pointwise and gate are justified, norm only when both factors are orthogonal. Violation exhibited: tensor declares norm although a factor which does not support it is not orthogonal."},
 {"property": "C68", "status": "proved", "theorems": ["Escnn.TensorProduct.C68_tensor_product", "Escnn.TensorProduct.C68_cyclic", "Escnn.TensorProduct.C68_so2", "Escnn.TensorProduct.C68_init", "Escnn.TensorProduct.C68_train"], "note": "For every group given by an irrep table with Clebsch-Gordan coefficients satisfying CGLaw (instances: cyclic groups, SO(2)). The name of the tensor square must not be registered already; the cache of build_fiber_intertwiner_basis by names is not modelled (see C22)."},
 {"property": "C69", "status": "proved", "theorems": ["Escnn.SKB.C69_of_gen", "Escnn.SKB.C69_wigner_eckart", "Escnn.SKB.C69_so2", "Escnn.SKB.C69_cyclic", "Escnn.SKB.C69_point", "Escnn.C69_subgroup", "Escnn.C69_plane_so2", "Escnn.C69_plane_cyclic", "Escnn.circular_independent", "Escnn.SO2.schur", "Escnn.Cyclic.schur"], "note": "Completeness of the bases of both solvers, of SteerableKernelBasis and of the kernel bases on the plane for SO(2) and C_N; Schur's lemma for the irreps of SO(2) and C_N and independence of the circular filters are proved. For other groups the generic theorems take a valid Clebsch-Gordan table and Schur's lemma as hypotheses."},
 {"property": "C70", "status": "proved", "theorems": ["Escnn.SKB.C70_wigner_eckart", "Escnn.SKB.C70_so2", "Escnn.SKB.C70_cyclic", "Escnn.SKB.C70_point", "Escnn.C70_subgroup", "Escnn.C70_plane_so2", "Escnn.C70_plane_cyclic", "Escnn.KernelsIndependent.unique"], "note": "Generic for orthonormal Clebsch-Gordan tables; instances SO(2), C_N, linear maps, and the plane. Independence of the Gaussian shells is proved when the pairs (radius, sigma) are distinct."},
 {"property": "C71", "status": "proved", "theorems": ["Escnn.Upsampling.C71_init", "Escnn.Upsampling.C71_scale", "Escnn.Upsampling.C71_size", "Escnn.Upsampling.C71_nearest_iff", "Escnn.Upsampling.C71_nearest_violated", "Escnn.Upsampling.C71_align_violated"], "note": "torch.nn.functional.interpolate is modelled by its documented formulas in exact arithmetic; the two violations show that the exceptions in the statement are needed; C71_init states which arguments the constructors accept"},
 {"property": "C72", "status": "proved", "theorems": ["Escnn.PointwisePool.C72_max", "Escnn.PointwisePool.C72_avg", "Escnn.AdaptivePool.C72_max", "Escnn.AdaptivePool.C72_avg", "Escnn.AntialiasedPool.C72_avg", "Escnn.AntialiasedPool.C72_max", "Escnn.NormMaxPool.C72_norm", "Escnn.PointwisePool.C72_max_iff", "Escnn.PointwisePool.C72_stride_violated"], "note": "All the pooling modules over feature maps, on grids of any dimension and sizes. The condition on the sizes is shown to be necessary for max pooling (C72_max_iff)."},
 {"property": "C73", "status": "proved", "theorems": ["Escnn.C73_conv", "Escnn.RdConvT.C73_module", "Escnn.RdConvT.C73_cyclic", "Escnn.RdConvT.C73_output_padding_violated"], "note": "For any steerable filter (C73_conv), for the modules given kernel bases which are steerable (C73_module) and for the cyclic groups on the plane (C73_cyclic). With output padding it is false (C73_output_padding_violated)."},
 {"property": "C74", "status": "proved", "theorems": ["Escnn.PointConv.C74_module", "Escnn.PointConv.C74_groups", "Escnn.PointConv.C74_so2", "Escnn.PointConv.C74_cyclic", "Escnn.PointConv.C74_value", "Escnn.PointConv.C74_edge_order", "Escnn.PointConv.C74_relabel", "Escnn.PointConv.C74_translation", "Escnn.PointConv.C74_no_edges_violated", "Escnn.PointConv.C74_shape_violated"], "note": "C74_module holds for every steerable filter basis and every group acting linearly on the points; C74_so2 and C74_cyclic instantiate it for the planar kernels (with any basis filter). C74_groups covers several groups: a layer either raises in every call or commutes. C74_value gives the features which a layer returns, C74_edge_order and C74_relabel say that the order of edges and points does not matter. The violated theorems show that calls without edges and evaluate_output_shape on two-dimensional features raise."},
 {"property": "C75", "status": "proved", "theorems": ["Escnn.SO3.C75_group", "Escnn.SO3.C75_cyclic", "Escnn.SO3.C75_so2", "Escnn.SO3.C75_dihedral", "Escnn.SO3.C75_o2", "Escnn.SO3.C75_self", "Escnn.SO3.C75_plato", "Escnn.SO3.C75_ids", "Escnn.SO3.C75_rejects"], "note": "scipy's Rotation enters through its contract (AsQuat: as_quat returns one of the two quaternions); the groups of the solids enter through the contract RotGroup.Lawful"},
 {"property": "C76", "status": "partial", "theorems": ["Escnn.O3.C76_group", "Escnn.O3.C76_cyclic", "Escnn.O3.C76_so2", "Escnn.O3.C76_dihedral", "Escnn.O3.C76_o2", "Escnn.O3.C76_cylinder_discrete", "Escnn.O3.C76_cylinder", "Escnn.O3.C76_fullcylinder_discrete", "Escnn.O3.C76_fullcylinder", "Escnn.O3.C76_pyramid", "Escnn.O3.C76_cone", "Escnn.O3.C76_mirror", "Escnn.O3.C76_inversion", "Escnn.O3.C76_so3", "Escnn.O3.C76_self", "Escnn.O3.C76_plato", "Escnn.O3.C76_fullplato", "Escnn.O3.C76_ids", "Escnn.O3.C76_rejects", "Escnn.O3.C76_cone_axis_violated"], "note": "proved except for the ids ('cone', a, n) with a float axis, where the code violates the statement: the reflections are at the angle -a (C76_cone_axis_violated)"},
 {"property": "C77", "status": "partial", "theorems": ["Escnn.SO3.C77_self", "Escnn.SO3.C77_so2", "Escnn.SO3.C77_cyclic", "Escnn.SO3.C77_o2", "Escnn.SO3.C77_dihedral", "Escnn.C77_pole", "Escnn.SO3.C77_ico_self", "Escnn.SO3.C77_ico_cyclic_partial", "Escnn.SO3.C77_ico_violated", "Escnn.SO3.C77_octa_violated", "Escnn.O3.C77_self", "Escnn.O3.C77_so3", "Escnn.O3.C77_cone_partial", "Escnn.O3.C77_pyramid_partial", "Escnn.O3.C77_cone_violated", "Escnn.O3.C77_cone_rotations_violated", "Escnn.O3.C77_mirror_violated", "Escnn.O3.C77_rotations_violated", "Escnn.O3.C77_cylinder_violated", "Escnn.O3.C77_inversion_violated"], "note": "proved for the subgroups of SO(3), SO(2), C_N, O(2), D_N inside SO(3), for the icosahedral group and its subgroups with n = 1, 2 (n = 3, 5 when not conjugated), for O(3) and SO(3) inside O(3); the code violates the statement for the other ids of O(3) (exact conditions in C77_cone_partial, C77_pyramid_partial) and for conjugated icosahedral groups; the subgroups of the icosahedral group with flips raise NotImplementedError and (True, 1) is rewritten to (False, 2) before (C90_flip, C90_id_errors)"},
 {"property": "C78", "status": "partial", "theorems": ["Escnn.GSpace3D.C78_whole", "Escnn.GSpace3D.C78_solids", "Escnn.GSpace3D.C78_rot2d", "Escnn.GSpace3D.C78_dihedral", "Escnn.GSpace3D.C78_conical", "Escnn.GSpace3D.C78_fullCylindrical", "Escnn.GSpace3D.C78_cylindrical", "Escnn.GSpace3D.C78_rejects", "Escnn.GSpace3D.C78_axis_violated"], "note": "the set of symmetries of every constructor is determined exactly; for conicalOnR3 and mirOnR3 the reflections are at -axis, which violates the statement (C78_axis_violated); fullCylindricalOnR3, whose axis is not documented, uses half the angle"},
 {"property": "C79", "status": "proved", "theorems": ["Escnn.SO3.C79_so3_rep", "Escnn.SO3.C79_so3_self", "Escnn.SO3.C79_so3_so2", "Escnn.SO3.C79_so3_o2", "Escnn.SO3.C79_so3_cyclic", "Escnn.SO3.C79_so3_dihedral", "Escnn.SO3.C79_so3_standard", "Escnn.O3.C79_o3_rep", "Escnn.O3.C79_o3_self", "Escnn.O3.C79_o3_so3", "Escnn.O3.C79_o3_inversion", "Escnn.O3.C79_o3_so2", "Escnn.O3.C79_o3_o2", "Escnn.O3.C79_o3_cyclic", "Escnn.O3.C79_o3_dihedral", "Escnn.O3.C79_o3_cone", "Escnn.O3.C79_o3_standard"], "note": "wigner_D_matrix of lie_learn is described by the contract Wigner (its values on the rotations around Z and on the half turn around Y, multiplicativity, orthogonality, degree one); matrices meeting it are constructed for l = 1 and 2. For the solids and other ids without a closed form the code decomposes the restriction numerically, which is not modelled."},
 {"property": "C80", "status": "proved", "theorems": ["Escnn.SO3.C80_so3_character", "Escnn.SO3.C80_so3_tensor", "Escnn.SO3.C80_so3_regular", "Escnn.O3.C80_o3_character", "Escnn.O3.C80_o3_tensor", "Escnn.O3.C80_o3_regular"], "note": "Under the contract Wigner for the matrices of lie_learn. The numbers are exact reals; np.isclose(sin, 0.) is |sin| <= 1e-8."},
 {"property": "C81", "status": "partial", "theorems": ["Escnn.C81_harmonics", "Escnn.C81_steerable", "Escnn.C81_o3", "Escnn.C81_subgroup", "Escnn.C81_so3_subgroup", "Escnn.C81_so3", "Escnn.C81_so2", "Escnn.C81_cyclic", "Escnn.C81_inversion", "Escnn.C81_o2_dihedral", "Escnn.C81_dihedral", "Escnn.C81_cone", "Escnn.C81_dispatch", "Escnn.C81_maximum_frequency_violated", "Escnn.C81_entries_injective", "Escnn.O3.C81_o3_coefficients"], "note": "Harmonics, shells and kernels of O(3), SO(3) and their subgroups are proved steerable, for coefficients of the tensor products which meet their contract (they are solved for numerically, trusted base), with the number of kernels for O(3). The last clause is false and its negation proved: without maximum_frequency GSpace3D._basis_generator raises TypeError, and it never calls the functions for the whole groups (it calls those for subgroups with the whole group instead). Subgroups: SO(3), SO(2), C_N, inversion, O(2) and D_N as half turns, the cone; the general theorem takes any other subgroup whose maps and restrictions are correct (C76, C79). The functions for full Platonic symmetries raise NotImplementedError and are not modelled.; the tuple of a subgroup determines its id and adjoint element; The coefficients of O(3) follow from those of SO(3) (C81_o3_coefficients); for an irrep of the wrong parity the code raises TypeError, since np.zeros gets four arguments."},
 {"property": "C82", "status": "partial", "theorems": ["Escnn.C82_basis", "Escnn.C82_complete_basis", "Escnn.C82_kernel_length", "Escnn.Sparse.C82_sparse_steerable", "Escnn.Sparse.C82_sparse_default", "Escnn.Sparse.C82_sparse_commuting", "Escnn.Sparse.C82_stabilizer", "Escnn.Sparse.C82_sparse_accepts", "Escnn.Sparse.C82_change_of_basis_violated"], "note": "Proved for all finite groups, subgroups, orthogonal actions, roots, harmonics and widths. False with a change_of_basis which does not commute with the action (violation proved): the basis is then steerable under the conjugated action if that one is orthogonal (C82_sparse_steerable), but basis.action is the original one."},
 {"property": "C83", "status": "partial", "theorems": ["Escnn.C83_sylvester", "Escnn.C83_multiplicities", "Escnn.C83_finite_sound", "Escnn.C83_finite_exact", "Escnn.C83_build_sound", "Escnn.C83_build_exact", "Escnn.C83_cyclic", "Escnn.C83_dihedral", "Escnn.C83_restrict", "Escnn.C83_general_partial", "Escnn.C83_trivial_group_violated"], "note": "For finite groups everything is proved, the trivial group excepted, for which the code always raises (C83_trivial_group_violated). For groups without finitely many generators the code only checks the sampled elements, so C83_general_partial covers the products of generators and sampled elements; that the sampled elements generate a dense subgroup is missing, and so is the totality of decompose_representation_general. The change of basis of the finite case is orthogonal with exact routines; the code does not check it. Exactness of the singular value decomposition, of orth and of the optimiser is a contract, shown to be inhabited."},
 {"property": "C84", "status": "partial", "theorems": ["Escnn.C84_sound", "Escnn.C84_decomposition", "Escnn.C84_real", "Escnn.C84_exact", "Escnn.C84_dihedral", "Escnn.C84_dihedral_trivial"], "note": "Soundness is proved for all types of irreps, all numerical routines and all samples, for the group which the generators and the samples of the check generate (C84_sound, C84_decomposition). That the calls succeed with exact routines is proved for irreps of real type and for the finite groups whose irreps are all of real type, in particular D_N (C84_real, C84_exact, C84_dihedral). Missing: success for irreps of complex and quaternionic type; for a multiplicity of at least two the assertions L145 and L148 may fail, since they need a basis which is adapted to the endomorphisms. For infinite groups the result is an intertwiner on the subgroup generated by the samples only."},
 {"property": "C85", "status": "partial", "theorems": ["Escnn.Octa.C85_group", "Escnn.Octa.C85_is_element", "Escnn.Octa.C85_stored", "Escnn.Octa.C85_lawful", "Escnn.Octa.C85_in_so3", "Escnn.Octa.C85_generators", "Escnn.Octa.C85_irreps", "Escnn.Octa.C85_build_errors", "Escnn.Octa.C85_complete", "Escnn.Octa.C85_clebsch_gordan", "Escnn.Octa.C85_standard", "Escnn.Octa.C85_cyclic", "Escnn.Octa.C85_child_partial", "Escnn.Octa.C85_child_violation", "Escnn.Octa.C85_vertices_faces", "Escnn.Octa.C85_edges_violation", "Escnn.Octa.C85_restrict_trivial_violation", "Escnn.Octa.C85_id_errors", "Escnn.Octa.C85_trivial_whole", "Escnn.Octa.C85_restrict", "Escnn.Octa.C85_restrict_whole", "Escnn.Octa.C85_axis_aligned"], "note": "Group, membership, generators, irreps (built from the generators, for every order of iteration), their completeness, the numerical Clebsch-Gordan coefficients, the standard representation, the subgroup of SO(3), the inclusions of the cyclic subgroups and the meaning of cube_vertices and cube_faces are proved. The code violates the rest: the map to a cyclic subgroup gives None for half of the quaternions of its elements (C85_child_violation; C85_child_partial is what holds), cube_edges is not the action on the edges (C85_edges_violation), and the restriction to the trivial subgroup names an irrep which does not exist (C85_restrict_trivial_violation). Trusted: the contract of the Wigner matrix of frequency 1 and of scipy's Rotation.; The restriction of irreps to the whole group and, given the numerical decomposition for the subgroup which is not conjugated (C83), to the cyclic subgroups is proved for every adjoint element."},
 {"property": "C86", "status": "partial", "theorems": ["Escnn.BasisParams.C86_conv", "Escnn.BasisParams.C86_point", "Escnn.BasisParams.C86_default_rings", "Escnn.BasisParams.C86_defaults_accepted", "Escnn.BasisParams.C86_sigma", "Escnn.BasisParams.C86_cutoffs", "Escnn.BasisParams.C86_policies", "Escnn.BasisParams.C86_dilation_violation", "Escnn.BasisParams.C86_dilation3_violation", "Escnn.BasisParams.C86_policy_values"], "note": "The rings, widths, filter and maximum frequency are proved for all arguments, and that the defaults are accepted. The last sentence is false: the policies get the half of the undilated kernel size, so that the cut-offs change with the dilation; proved by two violations."},
 {"property": "C87", "status": "partial", "theorems": ["Escnn.Sphere.C87_healpix", "Escnn.Sphere.C87_fibonacci", "Escnn.Sphere.C87_fibonacci_violation", "Escnn.Sphere.C87_longlat", "Escnn.Sphere.C87_so3_sphere_violation", "Escnn.Sphere.C87_so3_sphere_total", "Escnn.Sphere.C87_o3_sphere", "Escnn.Sphere.C87_pole2point"], "note": "The points of the grids, the elements of O(3) and find_rotation_pole2point are proved. Violated: the elements of SO(3) returned by sphere_grid send the pole to the antipode of the point (C87_so3_sphere_violation), and the Fibonacci grid with one point is NaN (C87_fibonacci_violation). healpix returns 12 N^2 points, although the documentation of its parameter says about N."},
 {"property": "C88", "status": "proved", "theorems": ["Escnn.C88_so2", "Escnn.C88_o2", "Escnn.C88_dihedral", "Escnn.C88_product", "Escnn.C88_random", "Escnn.C88_quadrature", "Escnn.Fourier.C88_sampling", "Escnn.Fourier.C88_aliasing", "Escnn.Fourier.C88_fourier"], "note": "Angles are exact reals. The constant in C88_sampling is c/(c+1e-8), where 1e-8 is the ridge added by the code to the matrix which is inverted."},
 {"property": "C89", "status": "proved", "theorems": ["Escnn.Ico.C89_group", "Escnn.Ico.C89_generators", "Escnn.Ico.C89_irreps", "Escnn.Ico.C89_build_errors", "Escnn.Ico.C89_complete", "Escnn.Ico.C89_clebsch_gordan", "Escnn.Ico.C89_bl_irreps", "Escnn.Ico.C89_standard", "Escnn.Ico.C89_is_element", "Escnn.Ico.C89_lawful", "Escnn.Ico.C89_in_so3"], "note": "The Wigner matrices of frequency 1 and 2 are given by their contract; entries and quaternions are exact numbers; the order of create_group('I') of scipy is part of the model, of which positions 0 and 21 are used."},
 {"property": "C90", "status": "partial", "theorems": ["Escnn.Ico.C90_cyclic", "Escnn.Ico.C90_child_partial", "Escnn.Ico.C90_child_violation", "Escnn.Ico.C90_trivial_whole", "Escnn.Ico.C90_flip", "Escnn.Ico.C90_id_errors", "Escnn.Ico.C90_vertices_faces_edges", "Escnn.Ico.C90_restrict", "Escnn.Ico.C90_restrict_trivial_whole"], "note": "Inclusions, trivial and whole subgroup, the flip, errors and the meaning of vertices, faces and edges are proved. The code violates the rest: the map to a cyclic subgroup gives None for one of the two quaternions of its elements (C90_child_violation; C90_child_partial is what holds). Trusted: the contract of scipy's Rotation.; The restriction of irreps is proved for every adjoint element; the decomposition for the subgroup which is not conjugated, computed by the numerical routine restrict_irrep (C83), is its hypothesis."},
 {"property": "C91", "status": "proved", "theorems": ["Escnn.DeltaInit.C91_zero", "Escnn.DeltaInit.C91_columns", "Escnn.DeltaInit.C91_rows", "Escnn.DeltaInit.C91_success", "Escnn.DeltaInit.C91_single"], "note": "ortho_group.rvs and torch.randn are arguments; the contract of the first is that the matrix is orthogonal (rows and columns). C91_single: with one input and one output position the factor is always -1, because torch.randint(0, 1) never returns 1."},
 {"property": "C92", "status": "partial", "theorems": ["Escnn.Thomson.C92_result", "Escnn.Thomson.C92_unit", "Escnn.Thomson.C92_best", "Escnn.Thomson.C92_empty", "Escnn.Thomson.C92_optimizer", "Escnn.Thomson.C92_distance_so3", "Escnn.Thomson.C92_cpu_violation", "Escnn.Thomson.C92_attempts", "Escnn.Thomson.C92_cube_sphere", "Escnn.Thomson.C92_quaternion_basis", "Escnn.Thomson.C92_cube_so3", "Escnn.Thomson.C92_separated", "Escnn.Thomson.C92_bound"], "note": "Proved for the GPU. The first sentence is false on the CPU, for which best_X shares the memory of X: the last array is returned instead of the best one (C92_result, violation proved in C92_cpu_violation). Steps of the optimiser, torch.isclose and the random numbers are arguments; sums and norms are exact. That the group of scipy is closed is a hypothesis, shown to hold for the 24 rotations of C85."},
 {"property": "C93", "status": "proved", "theorems": ["Escnn.C93_diagonal", "Escnn.C93_diagonal_planar", "Escnn.C93_diagonal_id"], "note": "For every group whose equality of elements is exact and whose pairs are accepted by the direct product (C04). Groups with a product as second factor are broken (C04_right_nested_violated)."},
 {"property": "C94", "status": "proved", "theorems": ["Escnn.C94_so2", "Escnn.C94_cyclic", "Escnn.C94_o2", "Escnn.C94_dihedral", "Escnn.C94_o3", "Escnn.C94_regular"], "note": "SO(2) and SO(3) run the same code, modelled once. Ids (l,) are modelled as l. The ids of the irreps of C_N, D_N and O(2) are those accepted by irrep() (Cyclic.irrepIds, Dihedral.irrepOk, O2.irrepOk); for SO(3) and O(3) all frequencies and both parities. The regular representations of SO(3) and O(3) are in C80."}
]}
