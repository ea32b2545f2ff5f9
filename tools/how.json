{
 "C01": [
  "all of `ncon.py` (`Model/Ncon`)",
  "loop invariant: the labelled sum of the network is preserved by each contraction step; a connectivity invariant gives a single tensor at the end"
 ],
 "C02": [
  "all of `ncon.py`",
  "both calls equal the same Einstein sum (C01)"
 ],
 "C03": [
  "`do_check_indices` branch by branch",
  "case analysis of the checks against the specification of a well-labelled network"
 ],
 "C04": [
  "effect of `connect_graph` on the caller's `order` list",
  "the appended labels are tracked; witness for every disconnected network"
 ],
 "C05": [
  "`group_legs`, `ungroup_legs`, `inverse_transpose`",
  "ravel/unravel are inverse; permutation inverse"
 ],
 "C06": [
  "`ρA`, `partial_trace`",
  "einsum semantics; sums over the traced axes"
 ],
 "C07": [
  "`loc`, `split_up`, `loc_3`, `split_up_3`",
  "division algorithm"
 ],
 "C08": [
  "`__init__`, `recombine`",
  "induction on the chain"
 ],
 "C09": [
  "`add`, `mul`",
  "block structure of the summed tensors, induction on the chain"
 ],
 "C10": [
  "`mul`, `__mul__`, `__truediv__`",
  "induction on the chain"
 ],
 "C11": [
  "`from_product_state`, `apply`",
  "local replacement in the chain"
 ],
 "C12": [
  "`apply_two_site`, `apply_unitary`, `group_tensors`, `separate_tensor_*`",
  "local replacement lemma for two neighbouring sites; induction along the swap network"
 ],
 "C13": [
  "`post_select`",
  "induction on the chain"
 ],
 "C14": [
  "`overlap`, `full_overlap`, `norm`",
  "environment induction"
 ],
 "C15": [
  "`left/right/mixed_orthogonalise`",
  "sweep invariant: isometries behind the centre, state preserved"
 ],
 "C16": [
  "`left/right/mixed_canonicalise`",
  "two sweeps: isometry sweep, then diagonalisation of the environments with orthonormal eigenvectors"
 ],
 "C17": [
  "same as C16, with truncation",
  "bond bound carried through both sweeps"
 ],
 "C18": [
  "`left_from_state`, `right_from_state`",
  "induction on the number of sites split off"
 ],
 "C19": [
  "`create_structure`",
  "closed form by induction"
 ],
 "C20": [
  "`serialize`, `deserialize`",
  "induction on the chain"
 ],
 "C21": [
  "`store`, `load` with a file-system map",
  "round trip through the map; name rules of `np.save`"
 ],
 "C22": [
  "`mps_pad`, `expand`",
  "zero padding does not change sums; the sweep of C01 on the padded chain; shapes followed through the sweep"
 ],
 "C23": [
  "`E`, `E_`, `Es`, `E_k`, `E_L`, `rho`, `local_overlap`",
  "isometry collapse of the environments"
 ],
 "C24": [
  "object flags of all modelled methods",
  "invariant over call sequences"
 ],
 "C25": [
  "`factors`",
  "number theory"
 ],
 "C26": [
  "`Hamiltonian.__init__`, `to_matrices`, `to_full`",
  "sums of Kronecker products"
 ],
 "C27": [
  "`to_mpo`",
  "transfer-matrix induction for the MPO"
 ],
 "C28": [
  "`tensor`, `n_body`",
  "Kronecker products"
 ],
 "C29": [
  "`spins`, `ladders`, `paulis`",
  "matrix algebra for every spin"
 ],
 "C30": [
  "`su`, `components`",
  "matrix algebra for every N"
 ],
 "C31": [
  "`levi_civita`, `perm_parity`",
  "transposition count equals the sign"
 ],
 "C32": [
  "`Nsphere`",
  "induction on the vector"
 ],
 "C33": [
  "`Map`, `TransferMatrix`",
  "index computation"
 ],
 "C34": [
  "memo tables",
  "string keys: injective up to 11 sites, collision beyond"
 ],
 "C35": [
  "`Trajectory` bookkeeping, `mps_list` after `edint`",
  "state machine invariant"
 ],
 "C36": [
  "`rk4`, `euler`",
  "algebra of the stages for any vector field; remainder estimate for linear fields"
 ],
 "C37": [
  "`fTFD.from_fMPS`, `symmetry`, `symmetrise`",
  "induction on the chain"
 ],
 "C38": [
  "`fPEPS.__init__`, `T`, `R`, `U`",
  "re-indexing of the bond sums over the grid"
 ],
 "C39": [
  "`match_gauge_to`",
  "the polar unitary is a gauge transformation"
 ],
 "C41": [
  "`get_envs`, `left_transfer`, `right_transfer`",
  "induction on the range of sites"
 ],
 "C42": [
  "`fMPO.__mul__`, `recombine`, `from_mps`, `transpose_ud`",
  "induction on the chain, transfer network"
 ],
 "C43": [
  "`sympmat`, `changebasis`",
  "index computation"
 ],
 "C44": [
  "`unitary_extension`",
  "null space complements the columns"
 ],
 "C45": [
  "`is_left_canonical`, `is_right_canonical`",
  "unfolding `allclose`"
 ],
 "C46": [
  "`iMPS.canonicalise`, `TransferMatrix.eigs`",
  "matrix algebra with Cholesky factors of the fixed points"
 ],
 "C47": [
  "`Trajectory.stop`",
  "sorting of directory names as strings"
 ],
 "C48": [
  "`left_null_projector`, `dA_dt` (both branches)",
  "the projector is orthogonal to the tensor weighted with its environment; refuted on |00>+|01>+|11> written with a non-canonical chain, where the diagonal of the environment is not the environment"
 ],
 "C49": [
  "`tangent_space_dims`, `extract_tangent_vector`, `import_tangent_vector`",
  "the null vectors are an orthonormal basis of the gauge condition (count k + q = d p from a trace), so coordinates and tensors are inverse to each other site by site; different sites are orthogonal"
 ],
 "C40": [
  "arrays, lists and objects in a heap; the constructor, `__setitem__`, `right/left/mixed_orthogonalise`, `post_select`, `match_gauge_to`, `left/right_from_state`, `left/right_canonicalise`, `apply_two_site`, `copy`, `apply`, `mul`, `append`, `extend`",
  "Hoare triples: an array is written in place only if it was made during the call; induction over the history; simulation of the models on values"
 ],
 "C50": [
  "`vfMPS.from_fMPS`, `to_fMPS`",
  "inverse Schmidt matrices cancel"
 ],
 "C51": [
  "`embed`, `deembed` on vectors",
  "null space of a row"
 ],
 "C52": [
  "`swap`, `swap_symmetrise`, `swap_antisymmetrise`",
  "matrix algebra"
 ],
 "C53": [
  "`CZ`, `CNOT`, `CRy`",
  "matrix algebra"
 ],
 "C54": [
  "`entanglement_entropy`",
  "Schmidt weights from C16"
 ],
 "C55": [
  "`energy`",
  "environments of the canonical forms"
 ],
 "C56": [
  "`tests.py`",
  "unfolding"
 ],
 "C57": [
  "`embed`, `deembed` on arrays",
  "unitary extension"
 ],
 "C58": [
  "`uqr`, `urq`",
  "uniqueness of triangular factors with positive diagonal"
 ],
 "C59": [
  "`fTFD.E`, `Es`",
  "isometry collapse on the doubled index"
 ],
 "C60": [
  "`fPEPS.overlap`, `norm`, `apply`, `E`, `normalise`, `col_mpos`",
  "column transfer matrices; induction over columns and rows"
 ],
 "C61": [
  "`iMPS.E`",
  "trace identities with the fixed points"
 ],
 "C62": [
  "`iMPS.energy`",
  "trace identities; 2 by 2 witness"
 ],
 "C63": [
  "`_lmixed`, `_rmixed`, `mixed`",
  "loop invariant, partial correctness"
 ],
 "C64": [
  "`get_envs`, `left_null_projector`, `dA_dt` (both branches)",
  "each term of the loop is the contraction of the projected derivative with the environments of H; orthogonality to the state makes different sites orthogonal; with `fullH` the network of all sites is evaluated with a broken chain of conjugated tensors (`nc_broken`); every tangent vector is one in the left gauge plus a multiple of the state (`gauge_fix`), hence the result is the closest to `-i(H-⟨H⟩)ψ` among all tangent vectors (`dAdt_best_all`) and equal to it exactly when `Hψ` is tangent (`dAdt_exact`); along `x + c t dA_dt(H)` the state has the derivative `c` times the tangent vector (`dAdt_line`, induction over the sites), the norm is stationary and the energy has the derivative `2 Im c ‖T‖²/(‖ψ‖² L)` (`dAdt_line_energy`)"
 ],
 "C65": [
  "`tangent_state`",
  "the two changed tensors carry the factor of the one tangent tensor; Parseval at the site"
 ],
 "C66": [
  "`tangent_space_basis('eye'/'rand')`, `direct_sum`",
  "induction over the blocks"
 ],
 "C67": [
  "`SU`, `SU4`, `SU8`, `U4`, `U4s`; `expm` is the exponential of Mathlib",
  "spectral theorem for the determinant; a logarithm from the continuous functional calculus for the converse"
 ],
 "C68": [
  "`lambdas`, `slambdas`",
  "trace-orthogonality gives uniqueness; entries give completeness"
 ],
 "C69": [
  "`antiferro`, `ferro`",
  "numbers; violated for `ferro`"
 ],
 "C70": [
  "`insu2N`, `SU(..., \"2N\")`",
  "adding an idle qubit is a continuous algebra homomorphism, so it commutes with the exponential; coordinates by C30"
 ],
 "C71": [
  "`extractv`, `to_new_v`, `equal_up_to_phase`; `logm` is a parameter",
  "C30 and the exponential of a matrix plus a multiple of one"
 ],
 "C72": [
  "`edint` (both branches), `ed_evs`, `ed_energies`; `expm_multiply` exact",
  "Kronecker sums turn the matrix into Σ of embedded two-site terms; the exponential of a skew-Hermitian matrix is unitary and commutes with H; derivative of the exponential for the Schrödinger equation; C01/C02 for the chain left behind"
 ],
 "C73": [
  "`ed_OTOC`, `comm`",
  "⟨ψ|[W(t),V]†[W(t),V]|ψ⟩ is rewritten as a sum of squared moduli"
 ],
 "C74": [
  "`iMPS.__init__`, `serialize`, `deserialize`, `store`, `load` on unit cells; file names as `np.save` treats them",
  "induction over the tensors of the cell"
 ],
 "C75": [
  "`Map.left_fixed_point`, `iMPS.overlap`; the eigensolver by `LeadingLaw`, `0/0` as `none`",
  "`Σ_s tr(X_s†X_s r) = (1-|η|²) tr(l†l r)` for `X_s = l B_s - η A_s l` and the positive right fixed point `r` of the canonical form; equality forces `l B_s = η A_s l`, then simplicity makes `l†l` a multiple of 1"
 ],
 "C76": [
  "`fMPS.__call__`, `iMPS.__call__`",
  "refuted for every chain"
 ],
 "C77": [
  "`bell`, `comp_z`, `comp_x`, `i_comp_z`, on top of the models of `pad`, `fMPS(data, d)` and `left_canonicalise`",
  "amplitudes computed, then `leftCanonicalise_spec`; `compX_doc` has the exact set of `i` for which the docstring holds"
 ],
 "C78": [
  "`AKLT`, with the models of `spins`, `ladders` and `iMPS(data)`",
  "refuted: fixed points and the expectation value of the projector on total spin two computed for all tensors of this form (`tri_energy`); the projector is specified by its five vectors, shown to be the multiplet of spin two"
 ],
 "C79": [
  "`Lh` with `scipy.optimize.root` as a parameter",
  "the equation of the code is a linear map of matrices, injective because the leading eigenvalue is simple, so the root exists and is unique (`Lh_ok`); with a real transfer matrix the map is the transfer matrix, and the equation is iterated; counterexample with the tensor `(1+iX)/2, (i-Z)/2` and `h = 1⊗X`"
 ],
 "C80": [
  "`Lh`, `left_null_projector`, `dA_dt`",
  "the projector removes nothing from the scalar product with a variation in the left gauge; the terms of the window right of the variation vanish by the gauge, those at the variation are the two explicit terms, those left of it are the iterated equation of `Lh`; limit by mixing; uniqueness since the form is positive definite; counterexample: cluster state with a phase, `h = Z⊗Y`"
 ],
 "C81": [
  "`Rh` with `scipy.optimize.root` as a parameter",
  "the equation is a linear map; it is injective because its adjoint is, by simplicity of the leading eigenvalue; series by iteration; counterexample: cluster state and `h = Z⊗1`"
 ],
 "C82": [
  "`ivMPS.canonicalise`, `to_iMPS`, `r_eigenmatrix`, `l_eigenmatrix` with one pair in the unit cell; eigensolver, Cholesky, SVD and inverse are parameters",
  "the code computes the fixed points of `L G` and `G L`; those of `L G` follow from those of `G L` because `L` is invertible; the rest is the argument of `iMPS.canonicalise` (`vidal_of_data`), and that the eigenvalue is simple from the right follows from the left (`simpleRight_of_left`)"
 ],
 "C83": [
  "`ivMPS.E`",
  "the contraction is evaluated to a sum of traces and compared with the expectation value by `pair_expect`; the counterexample is a state with `D = 2` and `op = Y`"
 ],
 "C84": [
  "`add` with its nine cases of padding, the constructor",
  "amplitudes of block tensors split (`amp_blocks`): a choice of bond values that mixes the two blocks meets a zero entry, because the inner bonds connect all sites; `add_not_peps` evaluates a 2 x 3 grid"
 ],
 "C85": [
  "`row_contract`, `col_contract` (functions), `recombine` with both orders, `full_overlap`",
  "both joins are instances of one relation `Joins`; `joins_reduce` (induction on the length) expresses a joined line as a sum over the inner bonds, merged indices run over all bond values (`sum_merged`)"
 ],
 "C87": [
  "`from_mps` with `Lx`, without, and with both numbers",
  "entries of the reshaped tensors by position and direction (`snakeTensor_ok`), rows are pieces of the chain (`snake_row`), pieces compose (`amp_blocks_path`)"
 ],
 "C86": [
  "`row_contract`, `col_contract` (methods), `contract`, `E_k`",
  "the amplitude is a walk through the rows (`pepsAmp_walk`), consecutive steps of a walk are one step (`walk_merge`), and a joined block of rows is the product of its rows (`rowKern_merged`); columns by transposition; merged configurations correspond to configurations (`sum_blockS`)"
 ],
 "C88": [
  "`rho`, `rho_proj`, `bond_dimension`",
  "the amplitude of a product state is a product over sites, so the partial trace factorises (`siteRed_product`); a change of summation variable turns the value of `E` into a trace (`sum_swap`)"
 ],
 "C89": [
  "`F2` (list of two-site terms, `testing=False`, cache empty), `inv_envs`",
  "the blocks of transferred tensors are identified with partial sums of amplitudes (`mixR`); terms right of the first site vanish by the left gauge; each remaining branch of the loop is one local sum (`F2Ctx.term`), and both tangent tensors are linear in their coordinates (`pairing_set_linear`)"
 ],
 "C90": [
  "`F1` (list of two-site terms, `testing=False`, cache empty)",
  "as for C89; the ket is varied as well (`mixR_lastK`, `pairing_ket_linear`), the terms right of the first site vanish by the left gauge of the bra (`F2Ctx.vanish_ket`); the entries are found exactly, with the transposed terms (`f1Mat`) and the exchanged bond (`f1Gap`), and the two deviations are refuted on concrete states"
 ],
 "C91": [
  "`christoffel` without tensors and with one for the third site, `ungauge`, the lists `dA_dt` leaves in `dA_cache`",
  "the projectors of `left_null_projector` fix weighted left-gauge tensors (`PrFix`), the transfer of the second projector is the mixed right environment (`F2Ctx.chRs`), the left gauge leaves only `k = min(i, j)` (`F2Ctx.chVanish`); the change to coordinates turns the contraction into unit tangent tensors, linearity gives all others (`F2Ctx.coords`)"
 ],
 "C92": [
  "`jac` with `as_matrix=True`, for both values of `real_matrix`, with `inv_diag`, `ch_diag`, the slices `ind`, block assignment with broadcasting, `reshape(n, -1)`",
  "the blocks succeed and have the shapes of the coordinates (`jac_pre`, `F2Ctx.f1diag` for the diagonal of `F1`), the loops write disjoint blocks (`jacFold_ok`), the form on coordinate lists is the sum over blocks (`blocks_form`), each block of `F2` and `christoffel` is a matrix element (C89, C91); the left gauge removes the other sites of the evolution; one site without coordinates at the wrong place makes one reshape fail (`jacFill_gap`)"
 ],
 "C93": [
  "as C92",
  "`F1(i, i)` is Hermitian term by term: the contraction of each branch is written as a sum and its summation indices are exchanged in pairs (`f1Term_self`, `f1Term_before`, `f1Term_left`, `f1After_ok`, invariants of the transfer lists); `F1(j, i)` is the conjugated transpose by construction (`F2Ctx.f1herm`); the blocks of `F2` and `christoffel` are symmetric forms evaluated on unit coordinates (`F2Ctx.form_entry`); the four real blocks then satisfy the Hamiltonian relations"
 ],
 "C94": [
  "as C92",
  "the symplectic form is non-degenerate: an eigenvector of the transpose for `z` (determinant zero) gives one of `J` for `-z` (`symp_spectrum`); unit vectors give the trace (`symp_trace`)"
 ],
 "C95": [
  "`fixNull`, `FMPS.fixNulls`, `FMPS.jacFixed` (`fMPS.py:1277-1292`), on top of the model of C92",
  "a unitary turns an orthonormal null basis into one (`NullBasis.rotate`); the polar factor makes the overlap positive (`fixNull_ok`); the proofs of C92, C93 are written for any null basis (`F2Ctx.jacBlocks`, `F2Ctx.jac_sym`, `F2Ctx.rebase`)"
 ],
 "C96": [
  "`FMPS.basisF2`, `FMPS.jacHalves` (`fMPS.py:1960-1984`)",
  "the Hamiltonian relation in matrix form (`ham_iff`) gives the symmetry of `ΩJ`, the conjugation `Jᵀ = Ω(-J)Ω⁻¹` the symplectic exponential (`exp_symp`); entries of the Kronecker products (`jacHalves_ok`)"
 ],
 "C97": [
  "`Tdvp.lyapunov`, `lyLoop`, `lyStep`, `runMean`, `Tdvp.lyapunovMax` (`fTDVP.py:316-404`); matrix exponentials are exact, QR by contract",
  "invariant of the loop (`LyInv.step`, `LySeq.push`): a QR step of a symplectic matrix has `|det R| = 1` (`qr_round`), diagonals of triangular matrices multiply (`upper_mul_diag`), running means telescope; `FMPS.jac_fits` supplies Hamiltonian matrices and null vectors for the next round"
 ],
 "C98": [
  "`Tdvp.tsInt`, `tsLoop` (`fTDVP.py:410-432`)",
  "induction on the rounds; products of symplectic matrices (`flow_symp`), `symp_det`"
 ],
 "C99": [
  "`Tdvp.schmidts`, `schmidtRow`, `edChain`, `histChain` (`fTDVP.py:525-541`)",
  "per entry with the canonical form of C54 (`FMPS.leftCanonicalise_weights`, `hist_map`); uniqueness by comparing two decompositions through the overlaps of their vectors (`schmidt_overlaps`)"
 ],
 "C100": [
  "`Tdvp.vonNeumann`, `Tdvp.renyi`, `npArray` (`fTDVP.py:561-569`); the flag `strict` is the behaviour of `numpy.array` from 1.24 on",
  "the list of maxima is the greatest element over all decompositions (`max_of_row`); Jensen for the logarithm (`jensen_log`), rank at most the bond (`schmidt_rank_bond`); at the left end there is one weight (`weights_left_end`), so the lists are rectangular only without entanglement (`rectangular_iff`)"
 ],
 "C101": [
  "`Tdvp.loschmidt`, `Tdvp.mpsEvs`, `Tdvp.mpsEnergies` (`fTDVP.py:496-511`, `543-559`)",
  "per entry from C14, C55 and the expectation values of C18, moved from the state read back to the state recorded (`SameState`); Cauchy–Schwarz (`braket_le`)"
 ],
 "C102": [
  "`create_structure`, `random` (entries a parameter), the truncations, `isometrise` with `tensor_isometrise_*` through `group_legs`/`ungroup_legs`, the SVD a parameter (`Model/PepsIso.lean`). Specification `IsoSite`, `IsoGrid` (`Spec/IsoPeps.lean`).",
  "`isometrise_isometric`: the truncations are computed on the grid (`Lemmas/IsoTrunc`), each tensor becomes the `U` of an SVD (`Lemmas/IsoTensor`), and a grid of isometries is contracted row by row from above and below, each row from both ends (`iso_braket`)."
 ],
 "C103": [
  "`iso_E` at the centre and elsewhere.",
  "`isoE_eq_expval`: `iso_braket` with the operator applied to the centre."
 ],
 "C104": [
  "As C102; `Lx`, `Ly` as the constructor and `random` set them.",
  "`random_isometrise` gives the exact condition for square PEPS from the extents after truncation (`Lemmas/IsoStructure`); `isometrise_constructed` and `isometrise_rect` the errors for other grids."
 ],
 "C105": [
  "`moses_move_*`, `moses_move_oc_to`, `split_tensor` up to the call of `U2`; what follows the loop of `moses_move_right` is an arbitrary function. `factors` with the exact integer root.",
  "`mosesTo_error`, `isoE_off_centre`: every path reaches `split_tensor`, which cannot unpack `None`. `factors_closest`: minimality for all `n ≥ 1`."
 ],
 "C106": [
  "`projection_error` with its stale `l`, `should_expand`, `right_null_projector`, `tr_svd` (`Model/DynExpand.lean`); Cholesky, inverse, null space and SVD are parameters. Specification `HamTangent` (`Spec/ProjError.lean`).",
  "`projectionError_ok_partial`: each open bond contributes `dt²` times a sum of squares that is zero exactly when the two-site block is tangent (`Lemmas/TwoSiteTangent`, `ProjErr`); the blocks are tangent exactly when `H|ψ⟩` is (`Lemmas/HamTangent`); induction over the sites (`ProjErrLoop`). `projectionError_exact`: with `dAdt_exact`, the error is zero exactly when `dA_dt` is the exact time derivative."
 ],
 "C107": [
  "As C106: after the first open bond `l` is a constant function.",
  "`projectionError_raises`: the exact condition `OpenBondsMatch`; `projectionError_pair` a state for which it fails."
 ],
 "C108": [
  "`dynamical_expand`, `grow` (with fuel for the `while`).",
  "`dynamicalExpand_zz`: the exact amplitudes from `|00⟩` for any 4 by 4 matrix, through C48, C64 and the null vectors; `grow_eigenstate`, `grow_phase` the two consequences."
 ],
 "C109": [
  "`Trajectory.dynamical_expand` over an arbitrary `expand`.",
  "`trajExpand_own`."
 ],
 "C110": [
  "`anisotropic_heisenberg` of `projects/fMPO.py` with its blocks (`Model/ProjFmpo.lean`). Specification `hamElem` (`Spec/Ham.lean`).",
  "`anisotropicHeisenberg_spec`: the operator-valued automaton, induction over the bulk tensors from the right; `anisotropicHeisenberg_one` the negation for `L ≤ 1`."
 ],
 "C111": [
  "`MPO` environments, `get_envs`, `effH.mv`, `effH.asmatrix` (`Model/ProjFmpo.lean`); the sparse eigensolver and the sweeps of `DMRG` are not modelled. Specification `effElem`: amplitudes of the MPO between varied states (`Spec/MpoEff.lean`).",
  "Environments by induction (`Lemmas/MpoEnv`); the contractions entry by entry (`Lemmas/EffTensor`). `asmatrix_spec`, `mv_spec` give the exact entries (`effElemT`, right bond indices exchanged); `asmatrix_wrong`, `mv_wrong` the negations on two sites."
 ],
 "C112": [
  "`S_n_body`, `anisotropic_heisenberg`, `local_anisotropic_heisenbergs`, `local_isings` (`Model/Qmb.lean`); `qutip` operators are their matrices. Specifications `hamElem`, `siteElem`, `bondElem`, `blockElem`.",
  "Products of site operators through `tensor_block` (C15), sums by induction over the sites; `sNBody_low`, `localHeisenbergs_one` the negations."
 ],
 "C113": [
  "`fTFD.dA_dt` on top of the model of `fMPS.dA_dt` (`Model/TfdTdvp.lean`). Specifications: `copiesAct` (H on both copies), `sitesAct` (every matrix on single sites) in `Spec/TfdAct.lean`.",
  "`kron(eye, h) + kron(h, eye)` as a two-site matrix acts on the sites separately (`doubled_gate`), so the vector is tangent (`doubled_tangent`) and `dAdt_exact` gives the flow (`dAdt_eq`); `dAdt_wrong` the negation for the double of |00⟩."
 ],
 "C114": [
  "`mps_OTOC` with the application of an operator, canonicalisation and scaling of the first tensor (`Model/Otoc.lean`); the step to the next time refers to an undefined name and is `NameError`. Specification: `commAct`, `otocNow`, `OtocEntry`.",
  "`mpsOTOC_ok` gives every entry as 2 − ½ Re(phase · overlap) of unit vectors, `otocEntry_range` bounds it by Cauchy–Schwarz, `mpsOTOC_name` the `NameError`, `mpsOTOC_wrong` the negation for commuting operators."
 ],
 "C115": [
  "`rho_proj` (`Model/RhoProj.lean`); bonds of `other` above one and a local dimension of one are an error there. Specification: `crossDens`, `conjOutside`.",
  "Induction over the chain of one-dimensional bonds (`sum_prodVal`, `crossDens_product`), evaluation of the outer products (`outer_ok`, `outers_ok`) and their Kronecker product (`tensor_spec`); `rhoProj_wrong` the negation for |0⟩(|0⟩+i|1⟩)."
 ],
 "C116": [
  "The branches of `rho` and `local_overlap` for bond dimension one (`Model/Expect.lean`), `product_state_overlap`, `approx_overlap`, `k_local_approx_overlap` (`Model/RhoProj.lean`). Specification: `blockNorm`, `densOverlap`.",
  "`rhoString_spec` relates the string of one-site matrices to the density matrix of the block, `EkString_spec` and `opExpect_eq_trace` give the trace; `localOverlap_wrong` the negation (2 instead of 1). For a product state the loop over the windows is an induction in which the changed state stays in its ray (`Props/KLocal.lean`)."
 ],
 "C117": [
  "`apply_isometry`, `apply_two_site_isometry` with the SWAPs of the model of `apply_two_site` (`Model/IsoRandom.lean`). Specification: `isoAct`.",
  "The grouped tensor contracted with the isometry (`applyIsometry_ok`) inserted into the sum over bonds (`amp_mid`); `applyTwoSiteIsometry_chain` decides when the returned tensors fit."
 ],
 "C118": [
  "`random` with the random numbers as parameters (`Model/IsoRandom.lean`): angles of the Bloch vectors for `D = 1`, array entries otherwise; the distribution is not modelled.",
  "Induction over the bonds (`chain_bonds`) with `createStructure_spec`; `blochTensor_norm`; `random_stale` evaluates `rho` on the object with the old centre."
 ],
 "C119": [
  "`random_with_energy_E` with both loops (`Model/EnergySearch.lean`): the inner loops with a bound on the number of steps, whose exhaustion is the outcome `diverges`; `energy` is read once per state. The constants 0.1, 1e-5, 1e-2 are exact.",
  "Invariant `Ready` (normalised, diagonal positive environments) through every step: the step keeps the overlap with the state (`line_overlap`), so that `left_canonicalise` has a state to work on; the direction of a step is the sign of the derivative of `dAdt_line_energy`."
 ],
 "C120": [
  "`heis`, `isin` of `projects/fHam.py` (spin 1) and `projects/iHam.py` (spin 1/2) for any spin `n/2` (`Model/ProjHam.lean`), with the matrices of `spins` and `N_body_spins`. The relative imports of these scripts do not resolve inside `projects`; the model takes the functions of the package.",
  "The terms are added over the chain entry by entry (`blockElem`) and compared with the operators written per site and per bond (`isingElem`, `xxzElem`); the failures follow by looking at one entry of the difference, for every length."
 ],
 "C121": [
  "`optimise` of `projects/fHam.py` (`Model/ProjHam.lean`) on the model of `random`, `dA_dt`, `left_canonicalise` and `energy`; 0.1 is exact.",
  "Induction over the rounds with the invariant `Ready` of C119. The step that raises the energy: `0.8|00⟩+0.6|11⟩` with `250|11⟩⟨11|`, where `Hψ` is a tangent vector so that the step is exactly `ψ-(H-E)ψ/10` (`dAdt_exact`)."
 ],
 "C122": [
  "`CR`, `pCR` (`Model/SpinCheck.lean`), with `allclose` written out (`1e-8 + 1e-5 |b|`) in exact arithmetic.",
  "The answer is unfolded to the inequality per entry (`checkCR_iff`); the commutators of the spins of every size come from C34, the false positive is the 1×1 triple (0, 0, 1e-8)."
 ],
 "C123": [
  "`direct_sum`, `tr_svd` (`Model/TensorMisc.lean`).",
  "Entry by entry over the concatenations; the error of `tr_svd` by orthonormality of the columns and rows kept."
 ],
 "C124": [
  "`haar_unitary`, `get_null_space` (`Model/TensorMisc.lean`); the random matrix is a parameter.",
  "From `QRFullLaw`; completeness by invertibility of the triangular factor when the rows are independent."
 ],
 "C125": [
  "`svd` of `svd_robust.py` branch by branch (`Model/SvdRobust.lean`); the two drivers are parameters that return or raise.",
  "Case analysis on the outcome of `gesdd`; `svd_law` turns the contract on the drivers into the `SVDLaw` assumed by the canonicalisations."
 ],
 "C126": [
  "`E2`, `renyi` (`Model/Disentangle.lean`) on the model of `ncon` and `tensordot`.",
  "The contraction is evaluated by the Einstein sum of C01; row orthonormality of the gate removes the gate and its conjugate; `tr ρ² ≤ (tr ρ)²` by Cauchy-Schwarz."
 ],
 "C127": [
  "`renyi_2_disentangler` (`Model/Disentangle.lean`): the two loops as one over the same states, with fuel; `polar` and `qr` under `PolarLaw`, `QRLaw`; the random matrices are an arbitrary sequence.",
  "Induction over the rounds with an invariant. For the failure: on `psiW` every gate stays diagonal with entries `p, p*, p*, p`; the polar factor is computed exactly (`polar_of_unitary`), and the phase `y = p⁴z` is shown to stay between that of the state and twice it."
 ],
 "C128": [
  "`find_ground_state` with the attribute `e` set by `dA_dt` (`Model/FindGround.lean`), on the models of `dA_dt` and `canonicalise`; the random numbers are a parameter. `eigs` under `FixLaw`: where it returns, positive definite fixed points of a simple eigenvalue.",
  "Induction over the rounds gives the states of a run (`GroundTrace`). A left canonical tensor has a multiple of the identity and a diagonal matrix as fixed points, so that `e` is the energy and `dA_dt` returns (injectivity of the map of `Lh`) a tensor orthogonal to the state. A run of any length is shown to exist."
 ],
 "C129": [
  "`Trajectory` of `iTDVP.py` with its history and `Ds`, `euler`, `rk4`, `eulerint`, `rk4int`, `loschmidts` (`Model/ItdvpRun.lean`), on the models of `dA_dt`, `canonicalise`, `overlap` and (de)serialisation.",
  "Induction over the times gives the states of a run and the entries of the history (`Records`); reading back is the round trip of C74, the rates follow from `overlap_spec` with `mps_0` carried through the loop, which `overlap` changes. Runs of any length from the cluster state are shown to exist."
 ],
 "C130": [
  "`optimise` of `projects/iHam.py` with `method='euler'` (`Model/IHamOpt.lean`), on the models of `canonicalise`, `dA_dt` and `energy`; `random` is the tensor `A0`.",
  "Induction over the rounds gives the run (`OptRun`). The eigenvalue of the mixed canonical tensor is found by pairing with its positive diagonal fixed point, simplicity makes the fixed point `eigs` returns diagonal too, and `energy_eq` then gives the factor. Partial: not shown that a step lowers the energy. Runs of any length are shown to exist for bond dimension one."
 ],
 "C131": [
  "`fTFD.random` (`Model/TfdRandom.lean`) on the models of `fMPS.random` and `symmetrise`; the random numbers are parameters.",
  "The pure case from the amplitude and symmetry of `from_fMPS`, the other from the shapes of the random tensors, whose legs are all squares. Violations by evaluating the calls for every `L`."
 ],
 "C132": [
  "`fTFD.symm_asymm` (`Model/TfdSymm.lean`).",
  "The three matrices are shown to be diagonal, the identities and traces follow; the violation is the basis vector of the last pair, fixed by `Spec.exchange`."
 ],
 "C133": [
  "`local_ising`, `local_XX` (`Model/QmbLocal.lean`), with the operators of `Model/Qmb.lean`.",
  "The matrix of each term is found with `Rep`, put on every bond by `block_place`, and the fields are summed over the sites."
 ],
 "C134": [
  "`i_cat` (`Model/ExamplesCat.lean`), the assignments one by one.",
  "The exchange of the bond states takes one matrix to the other, and cancels along the ring by induction; for `ϵ = 0` the products are diagonal, by induction."
 ],
 "C135": [
  "`fix_neighbours` (`Model/PepsFix.lean`); the nested list is a function of row and column, with the numbers of rows and columns beside the attributes `Lx` and `Ly`.",
  "The dimensions after one bond are found (`meet_ok`); the four bonds touch different legs, so the four results are put together by case distinction."
 ],
 "C136": [
  "`__eq__` and `__ne__` of `fMPS` and `iMPS`, the same text (`Model/EqMps.lean`), with `allclose` and its broadcasting.",
  "Broadcasting is shown to be the identity for equal shapes, then induction over the list; the violations are families (a chain and its extensions, every pair of dimensions) or explicit tensors."
 ],
 "C137": [
  "`fPEPS.__eq__` (`Model/PepsEq.lean`), with `allclose` of the attributes and of the shapes as it is used there; `X` and `d` are taken to be set in both networks.",
  "Below 99999 `allclose` of integers is equality; induction over the pairs of tensors; the pairs of two grids of the same size are all the tensors."
 ],
 "C138": [
  "`create_structure`, `random` (entries a parameter), `trivial`, `rotate_90`, `unrotate_90` of `fMPO` (`Model/FmpoMake.lean`), over the product of C42.",
  "Induction over the inner sites; the product with an array of one entry is evaluated by the contraction theorem of C42; a quarter turn is specified on entries, and two tensors with the same turned tensor are the same."
 ],
 "C139": [
  "The loops of `left_transfer.pyx`, of `lt_` and of the function inside `left_transfer` as they are written (`Model/LeftLoop.lean`), next to the recursion used for C41.",
  "The appending loop goes through the states of the inserting one turned round; the last pass of the inserting loop is the outermost step of the recursion; then C41."
 ],
 "C140": [
  "`ivMPS.random` (the drawn numbers are parameters) and `ivMPS.transfer_matrix` (`Model/IvMake.lean`).",
  "Sortedness and permutation of merge sort, turned round; the two contractions evaluated entry by entry."
 ],
 "C141": [
  "`fs` and the splitting done in `fTFD.get_vL` (`Model/TfdVL.lean`); the null vectors returned by `left_null_projector` are a parameter.",
  "Reshape and transpose evaluated entry by entry; multiplying with `M` and exchanging the copies is an involution."
 ]
}