{
 "claims": [
  {
   "property": "C01",
   "status": "proved",
   "theorems": [
    "Xmps.Ncon.ncon_einsum",
    "Xmps.Ncon.ncon_einsum_default",
    "Xmps.Ncon.ncon_single"
   ],
   "note": "all tensors over a commutative semiring, all labelings incl. traces and disconnected graphs, all orders, all set iteration orders"
  },
  {
   "property": "C02",
   "status": "proved",
   "theorems": [
    "Xmps.Ncon.ncon_order_independent"
   ],
   "note": ""
  },
  {
   "property": "C03",
   "status": "proved",
   "theorems": [
    "Xmps.Ncon.ncon_check_exact",
    "Xmps.Ncon.ncon_check_irrelevant"
   ],
   "note": ""
  },
  {
   "property": "C04",
   "status": "partial",
   "theorems": [
    "Xmps.Ncon.ncon_order_unchanged_iff_partial",
    "Xmps.Ncon.ncon_repeat_raises"
   ],
   "note": "The code violates the property: on every disconnected network the caller's order list is extended and the repeated call raises (ncon_repeat_raises). It is unchanged iff the network is connected."
  },
  {
   "property": "C05",
   "status": "proved",
   "theorems": [
    "Xmps.groupLegs_entries",
    "Xmps.ungroup_group",
    "Xmps.inverseTranspose_spec",
    "Xmps.ungroupLegs_rank"
   ],
   "note": ""
  },
  {
   "property": "C06",
   "status": "partial",
   "theorems": [
    "Xmps.rhoA_entries",
    "Xmps.partialTrace_entries",
    "Xmps.rhoA_eq_partialTrace",
    "Xmps.rhoA_hermitian",
    "Xmps.rhoA_trace",
    "Xmps.rhoA_nil",
    "Xmps.rhoA_out_of_range"
   ],
   "note": "proved for every non-empty keep; for keep=[] the code violates the claim (rhoA_nil)"
  },
  {
   "property": "C07",
   "status": "partial",
   "theorems": [
    "Xmps.kron_loc",
    "Xmps.splitUp_kron",
    "Xmps.splitUp_rectangular_raises",
    "Xmps.splitUp3_kron",
    "Xmps.splitUp3_wrong"
   ],
   "note": "split_up with d=None always raises TypeError; split_up_3 is wrong for d>=3 (both proved)"
  },
  {
   "property": "C08",
   "status": "proved",
   "theorems": [
    "Xmps.FMPS.recombine_amplitudes",
    "Xmps.FMPS.constructor_holds"
   ],
   "note": "chains with equal local dimensions (recombine allocates d^L); bond dimensions and length arbitrary"
  },
  {
   "property": "C09",
   "status": "partial",
   "theorems": [
    "Xmps.FMPS.add_state_partial",
    "Xmps.FMPS.add_recombine_partial",
    "Xmps.FMPS.sub_state_partial",
    "Xmps.FMPS.add_one_site_drops_other",
    "Xmps.FMPS.add_not_sum_one_site"
   ],
   "note": "holds for L>=2; violated for L=1 (negation proved)"
  },
  {
   "property": "C10",
   "status": "proved",
   "theorems": [
    "Xmps.FMPS.mul_state",
    "Xmps.FMPS.mulItem_state",
    "Xmps.FMPS.truediv_state"
   ],
   "note": ""
  },
  {
   "property": "C100",
   "status": "partial",
   "theorems": [
    "Xmps.Tdvp.vonNeumann_hist",
    "Xmps.Tdvp.renyi_hist",
    "Xmps.Tdvp.vonNeumann_ed",
    "Xmps.Tdvp.entropy_chain",
    "Xmps.Tdvp.vonNeumann_strict_fails",
    "Xmps.Tdvp.vonNeumann_ed_strict_fails",
    "Xmps.Tdvp.vonNeumann_strict_zero",
    "Xmps.Tdvp.renyi_one",
    "Xmps.Tdvp.bell_fails"
   ],
   "note": "proved for numpy before 1.24; violated from numpy 1.24 on, where both raise ValueError as soon as a recorded state is entangled; renyi(1) raises ZeroDivisionError. Integer orders"
  },
  {
   "property": "C101",
   "status": "partial",
   "theorems": [
    "Xmps.Tdvp.loschmidt_hist",
    "Xmps.Tdvp.loschmidt_bounds",
    "Xmps.Tdvp.loschmidt_ed",
    "Xmps.Tdvp.loschmidt_expand_fails",
    "Xmps.Tdvp.mpsEvs_hist",
    "Xmps.Tdvp.mpsEnergies_hist"
   ],
   "note": "loschmidt is proved where every recorded state has the present bond dimension; violated otherwise (ValueError after expand) and after edint (returns Schmidt weights)"
  },
  {
   "property": "C102",
   "status": "proved",
   "theorems": [
    "Xmps.FPEPS.isometrise_isometric",
    "Xmps.FPEPS.iso_norm",
    "Xmps.FPEPS.iso_braket"
   ],
   "note": "the SVD is assumed correct (SVDLaw)"
  },
  {
   "property": "C103",
   "status": "proved",
   "theorems": [
    "Xmps.FPEPS.isometrise_isometric",
    "Xmps.FPEPS.isoE_eq_expval",
    "Xmps.FPEPS.isoEAt_eq"
   ],
   "note": "at the centre; elsewhere see C105"
  },
  {
   "property": "C104",
   "status": "partial",
   "theorems": [
    "Xmps.FPEPS.random_isometrise",
    "Xmps.FPEPS.isometrise_constructed",
    "Xmps.FPEPS.isometrise_rect",
    "Xmps.FPEPS.isometrise_assert",
    "Xmps.FPEPS.createStructure_eq"
   ],
   "note": "violated: exact condition for square PEPS made by random; IndexError for every PEPS made by the constructor that is not square; IndexError or Exception for random ones with more columns than rows or one row more"
  },
  {
   "property": "C105",
   "status": "partial",
   "theorems": [
    "Xmps.FPEPS.mosesTo_error",
    "Xmps.FPEPS.isoE_off_centre",
    "Xmps.FPEPS.mosesRight_error",
    "Xmps.FPEPS.factors_closest"
   ],
   "note": "violated: U2 returns None, so no move returns; factors is proved"
  },
  {
   "property": "C106",
   "status": "partial",
   "theorems": [
    "Xmps.projectionError_ok_partial",
    "Xmps.projectionError_exact",
    "Xmps.shouldExpand_iff"
   ],
   "note": "proved when the open bonds match; otherwise ValueError (C107). Missing: H with a number of terms other than L - 1, environments that are not diagonal"
  },
  {
   "property": "C107",
   "status": "partial",
   "theorems": [
    "Xmps.projectionError_raises",
    "Xmps.projectionError_pair"
   ],
   "note": "violated: exact condition on the bond dimensions; ValueError for |0>(|00>+|11>)|0>"
  },
  {
   "property": "C108",
   "status": "partial",
   "theorems": [
    "Xmps.dynamicalExpand_zz",
    "Xmps.grow_zz",
    "Xmps.grow_eigenstate",
    "Xmps.grow_phase"
   ],
   "note": "violated: for |00> the new part is dt <10|H|01> instead of -i dt <11|H|00>"
  },
  {
   "property": "C109",
   "status": "partial",
   "theorems": [
    "Xmps.trajExpand_own"
   ],
   "note": "violated: the argument is ignored, TypeError for a trajectory without a Hamiltonian"
  },
  {
   "property": "C11",
   "status": "proved",
   "theorems": [
    "Xmps.FMPS.fromProductState_state",
    "Xmps.FMPS.apply_state",
    "Xmps.FMPS.apply_comp",
    "Xmps.FMPS.apply_comm"
   ],
   "note": ""
  },
  {
   "property": "C110",
   "status": "partial",
   "theorems": [
    "Xmps.ProjMpo.anisotropicHeisenberg_spec",
    "Xmps.ProjMpo.anisotropicHeisenberg_one"
   ],
   "note": "proved for L ≥ 2; violated for L ≤ 1: two tensors are returned"
  },
  {
   "property": "C111",
   "status": "partial",
   "theorems": [
    "Xmps.ProjMpo.getEnvs_ok",
    "Xmps.ProjMpo.asmatrix_spec",
    "Xmps.ProjMpo.mv_spec",
    "Xmps.ProjMpo.asmatrix_last",
    "Xmps.ProjMpo.mv_first",
    "Xmps.ProjMpo.asmatrix_wrong",
    "Xmps.ProjMpo.mv_wrong"
   ],
   "note": "violated: the right bond indices of bra and ket are exchanged, and mv returns another order of the axes; exact description for all inputs, correct at the last site (asmatrix), consistent at the first (mv)"
  },
  {
   "property": "C112",
   "status": "partial",
   "theorems": [
    "Xmps.Qmb.sNBody_spec",
    "Xmps.Qmb.sNBody_high",
    "Xmps.Qmb.sNBody_low",
    "Xmps.Qmb.pairTerm_ok",
    "Xmps.Qmb.anisotropicHeisenbergFull_spec",
    "Xmps.Qmb.localHeisenbergs_spec",
    "Xmps.Qmb.localHeisenbergs_one",
    "Xmps.Qmb.localIsings_spec"
   ],
   "note": "proved for N ≥ 1 (full) and N ≥ 2 (local); violated for N = 1 (one two-site term is returned) and for negative sites (identity)"
  },
  {
   "property": "C113",
   "status": "partial",
   "theorems": [
    "Xmps.TFD.dAdt_eq",
    "Xmps.TFD.dAdt_wrong"
   ],
   "note": "violated: the terms act on the two sites instead of the two copies; the exact flow is proved for all inputs"
  },
  {
   "property": "C114",
   "status": "partial",
   "theorems": [
    "Xmps.Tdvp.mpsOTOC_ok",
    "Xmps.Tdvp.otocEntry_range",
    "Xmps.Tdvp.mpsOTOC_steps",
    "Xmps.Tdvp.mpsOTOC_name",
    "Xmps.Tdvp.mpsOTOC_wrong"
   ],
   "note": "violated: NameError as soon as an interval has a time step; otherwise every entry lies in [3/2, 5/2] while commuting operators have correlator 0; the state of the trajectory is multiplied by |Wψ|^(3^n - 1) after n times, up to a phase"
  },
  {
   "property": "C115",
   "status": "partial",
   "theorems": [
    "Xmps.FMPS.rhoProj_exact",
    "Xmps.FMPS.rhoProj_real_partial",
    "Xmps.FMPS.rhoProj_none",
    "Xmps.FMPS.rhoProj_wrong"
   ],
   "note": "violated: the tensors of self outside the sites are conjugated once too often; exact value for all product states, the promised one if those tensors are real; None for larger bonds"
  },
  {
   "property": "C116",
   "status": "partial",
   "theorems": [
    "Xmps.FMPS.rhoString_spec",
    "Xmps.FMPS.localOverlap_product",
    "Xmps.FMPS.localOverlap_product_right",
    "Xmps.FMPS.localOverlap_wrong",
    "Xmps.FMPS.productStateOverlap_spec",
    "Xmps.FMPS.kLocal_none",
    "Xmps.FMPS.kLocal_nan",
    "Xmps.FMPS.kLocal_full",
    "Xmps.FMPS.approxOverlap_product",
    "Xmps.FMPS.kLocal_product",
    "Xmps.FMPS.kLocal_unit"
   ],
   "note": "violated: the norm of the tensors of the product state on the sites is not divided out; k = L gives the squared modulus for normalised states, k = None the complex inner product. For a product state every k is covered (the mean over all windows); for two states with larger bonds values of k between are not proved, since moving the centre may change the bond dimension and with it the branch"
  },
  {
   "property": "C117",
   "status": "partial",
   "theorems": [
    "Xmps.FMPS.applyTwoSiteIsometry_neighbours_partial",
    "Xmps.FMPS.applyTwoSiteIsometry_chain",
    "Xmps.FMPS.applyTwoSiteIsometry_same"
   ],
   "note": "violated: the second site is not removed, the object is a chain only if two bonds agree; after removing it by hand the state is right (neighbouring sites). Missing: sites that are not neighbours"
  },
  {
   "property": "C118",
   "status": "partial",
   "theorems": [
    "Xmps.FMPS.random_product",
    "Xmps.FMPS.random_product_wrong",
    "Xmps.FMPS.random_chain",
    "Xmps.FMPS.random_one_site",
    "Xmps.FMPS.random_real",
    "Xmps.FMPS.random_stale"
   ],
   "note": "violated: D = 1 ignores d, one site raises IndexError, the attribute oc survives and makes rho wrong; the rest proved for all outcomes of the generator"
  },
  {
   "property": "C119",
   "status": "partial",
   "theorems": [
    "Xmps.FMPS.randomWithEnergy_cases",
    "Xmps.FMPS.randomWithEnergy_unreachable",
    "Xmps.FMPS.energyStep_direction",
    "Xmps.FMPS.randomWithEnergy_endless",
    "Xmps.FMPS.randomWithEnergy_raises",
    "Xmps.FMPS.randomWithEnergy_identity"
   ],
   "note": "a returned state has the energy asked for and each small step goes the right way; violated: the inner loop can run for ever (energies within 0.01 of E that cannot be reached). Not modelled: floating point, the distribution of the random numbers"
  },
  {
   "property": "C12",
   "status": "proved",
   "theorems": [
    "Xmps.FMPS.applyTwoSite_state",
    "Xmps.FMPS.applyTwoSite_spec",
    "Xmps.FMPS.applyTwoSite_neighbours",
    "Xmps.FMPS.applyTwoSite_svd",
    "Xmps.FMPS.applyTwoSite_order",
    "Xmps.FMPS.applyTwoSite_onesite_raises",
    "Xmps.FMPS.applyTwoSite_onesite",
    "Xmps.FMPS.applyTwoSite_stale"
   ],
   "note": "For i<j (the quantifier of the property) proved for every pair, both 'which', any QR/RQ; neighbours of any local dimension; with D given: bond bound, isometry, normalisation, and the exact state up to a positive factor when D is not binding. Sites given in decreasing order are silently sorted (applyTwoSite_order: CNOT on (1,0) acts with the control on 0); a 2x2 operator with two sites raises."
  },
  {
   "property": "C120",
   "status": "partial",
   "theorems": [
    "Xmps.ProjHam.isin_sum",
    "Xmps.ProjHam.isin_three",
    "Xmps.ProjHam.isin_wrong",
    "Xmps.ProjHam.isin_two",
    "Xmps.ProjHam.isin_one",
    "Xmps.ProjHam.iIsin_sum",
    "Xmps.ProjHam.heis_sum",
    "Xmps.ProjHam.iHeis_sum",
    "Xmps.ProjHam.heis_wrong"
   ],
   "note": "the exact sum of the terms for every L, Δ, λ and spin; violated: the field is doubled on the inner sites (right only for three sites), the last term of heis acts twice on the first site of the bond"
  },
  {
   "property": "C121",
   "status": "partial",
   "theorems": [
    "Xmps.ProjHam.optimise_spec",
    "Xmps.ProjHam.optimise_value",
    "Xmps.ProjHam.optimise_identity",
    "Xmps.ProjHam.optimise_other",
    "Xmps.ProjHam.optStep_up"
   ],
   "note": "never raises, the states are normalised and reached by Euler steps, stop conditions; violated: the number returned is the energy per site divided by L once more; a step can raise the energy. Assumes the random state is not zero; floating point not modelled"
  },
  {
   "property": "C122",
   "status": "partial",
   "theorems": [
    "Xmps.Spin.checkCR_iff",
    "Xmps.Spin.checkCR_of_rel",
    "Xmps.Spin.CR_spins",
    "Xmps.Spin.pCR_paulis",
    "Xmps.Spin.pCR_spins",
    "Xmps.Spin.CR_wrong"
   ],
   "note": "the exact answer for every triple; accepts the spins of every size and the Pauli matrices; violated for operators below the absolute tolerance 1e-8 of allclose, which are accepted whatever their commutators"
  },
  {
   "property": "C123",
   "status": "partial",
   "theorems": [
    "Xmps.TensorMisc.directSum_square",
    "Xmps.TensorMisc.directSum_wrong",
    "Xmps.TensorMisc.trSvd_spec"
   ],
   "note": "direct_sum of square matrices is the block diagonal matrix, tr_svd drops exactly the smallest singular values; violated: direct_sum raises ValueError unless both matrices are square"
  },
  {
   "property": "C124",
   "status": "proved",
   "theorems": [
    "Xmps.TensorMisc.haarUnitary_unitary",
    "Xmps.TensorMisc.getNullSpace_spec"
   ],
   "note": "under the contract QRFullLaw of scipy.linalg.qr; that the distribution is the Haar measure is not expressed"
  },
  {
   "property": "C125",
   "status": "proved",
   "theorems": [
    "Xmps.SvdRobust.svd_default",
    "Xmps.SvdRobust.svd_linAlgError",
    "Xmps.SvdRobust.svd_gesvd",
    "Xmps.SvdRobust.svd_invalid",
    "Xmps.SvdRobust.svd_law",
    "Xmps.SvdRobust.svd_law_iff"
   ],
   "note": "the two LAPACK drivers are parameters; the branch for scipy before 0.18 is not modelled"
  },
  {
   "property": "C126",
   "status": "proved",
   "theorems": [
    "Xmps.Disent.E2_ok",
    "Xmps.Disent.purity_ok",
    "Xmps.Disent.renyi_value",
    "Xmps.Disent.renyi_nonneg",
    "Xmps.Disent.trSq_le",
    "Xmps.Disent.gated_norm"
   ],
   "note": "exact arithmetic; U unitary"
  },
  {
   "property": "C127",
   "status": "partial",
   "theorems": [
    "Xmps.Disent.disentangler_partial",
    "Xmps.Disent.disentangler_diverges",
    "Xmps.Disent.disentangler_up",
    "Xmps.Disent.disentangler_up_run",
    "Xmps.Disent.psiW_norm",
    "Xmps.Disent.psiW_entropy",
    "Xmps.Disent.polar_of_unitary"
   ],
   "note": "never raises; what is returned is unitary, with the entropies as stated; violated: with max_iter at most 2 or a negative eps it never ends, and for a concrete normalised state every run that ends without a restart raises the entropy (the polar factor of E2 is used where its adjoint belongs). Termination for larger max_iter is not decided"
  },
  {
   "property": "C128",
   "status": "partial",
   "theorems": [
    "Xmps.IMPS.findGround_spec",
    "Xmps.IMPS.findGround_progress",
    "Xmps.IMPS.step_norm",
    "Xmps.IMPS.findGround_small",
    "Xmps.IMPS.findGround_size",
    "Xmps.IMPS.findGround_zero",
    "Xmps.IMPS.leftCanon_round",
    "Xmps.IMPS.fixLaw_exists"
   ],
   "note": "every state is left canonical, every number recorded the energy per bond, the steps and the end as in the code, and only the eigensolver can raise; violated: the energy of the state returned is not recorded, and tol bounds ϵ times the gradient, so that for every small enough ϵ the random state is returned at once. That the energies go down is not proved"
  },
  {
   "property": "C129",
   "status": "partial",
   "theorems": [
    "Xmps.ITdvp.eulerint_spec",
    "Xmps.ITdvp.rk4int_spec",
    "Xmps.ITdvp.integrate_spec",
    "Xmps.ITdvp.eulerint_progress",
    "Xmps.ITdvp.euler_norm",
    "Xmps.ITdvp.loschmidts_spec",
    "Xmps.ITdvp.integrate_short",
    "Xmps.ITdvp.integrate_times",
    "Xmps.ITdvp.rk4_step"
   ],
   "note": "proved for two or more times (for loschmidts on a new trajectory, bond dimension two or more, up to nan); violated: one time is an IndexError, and of times that are not equally spaced only the first two and the number enter"
  },
  {
   "property": "C13",
   "status": "partial",
   "theorems": [
    "Xmps.FMPS.postSelect_data_partial",
    "Xmps.FMPS.postSelect_recombine_wrong"
   ],
   "note": "tensors correct; the attribute L is stale so recombine() returns an array of the wrong rank (proved)"
  },
  {
   "property": "C130",
   "status": "partial",
   "theorems": [
    "Xmps.ProjHam.iOptimise_spec",
    "Xmps.ProjHam.energy_mixed",
    "Xmps.ProjHam.energy_mixed_partial",
    "Xmps.ProjHam.iOptimise_product",
    "Xmps.ProjHam.iOptimise_wrong"
   ],
   "note": "the run and the stopping rule are proved whenever the call returns; violated: the number is the energy per bond times tr(l^T r)^2 for the fixed points of the last tensor, (8/17)^2 in place of 1 in the witness, which makes no step; the number is right if one fixed point is symmetric, and for bond dimension one, where the call always returns. That each step lowers the energy is not proved"
  },
  {
   "property": "C131",
   "status": "partial",
   "theorems": [
    "Xmps.TFD.random_pure",
    "Xmps.TFD.random_pure_wrong",
    "Xmps.TFD.random_mixed",
    "Xmps.TFD.random_mixed_one",
    "Xmps.TFD.random_one_site"
   ],
   "note": "proved for two or more sites and D of two or more, and for pure states with D = 1 and d = 2; violated: with D = 1 the tensors have local dimension 4 whatever d is, pure=False with D = 1 always raises ValueError, one site raises IndexError unless D = 1"
  },
  {
   "property": "C132",
   "status": "partial",
   "theorems": [
    "Xmps.TFD.symmAsymm_ok",
    "Xmps.TFD.symmAsymm_projectors",
    "Xmps.TFD.symmAsymm_wrong",
    "Xmps.TFD.symmAsymm_one"
   ],
   "note": "projectors, ranks and difference are proved for every D; violated for every D of two or more: the matrices are diagonal, the projector on the first D(D+1)/2 basis states, and the last pair of equal indices, which is symmetric, is taken to zero; right for D = 1"
  },
  {
   "property": "C133",
   "status": "partial",
   "theorems": [
    "Xmps.Qmb.localIsing_spec",
    "Xmps.Qmb.localXX_spec",
    "Xmps.Qmb.localXX_wrong"
   ],
   "note": "local_ising is proved for every N; local_XX is proved to be the XX model with a field -J that the last site does not feel, so the claim is violated: g is ignored"
  },
  {
   "property": "C134",
   "status": "proved",
   "theorems": [
    "Xmps.Examples.iCat_flip",
    "Xmps.Examples.iCat_zero",
    "Xmps.Examples.iCat_mixed"
   ],
   "note": "for ϵ other than 0 and -1 spins that are not all equal have an amplitude (iCat_mixed)"
  },
  {
   "property": "C135",
   "status": "partial",
   "theorems": [
    "Xmps.FPEPS.fixNeighbours_spec",
    "Xmps.FPEPS.fixNeighbours_same",
    "Xmps.FPEPS.fixNeighbours_fits",
    "Xmps.FPEPS.fixNeighbours_tall",
    "Xmps.FPEPS.fixNeighbours_wide"
   ],
   "note": "proved for sites counted from zero if Lx and Ly are the numbers of columns and rows, as random sets them; violated for networks that are not square and come from the constructor, which swaps Lx and Ly: the last column or row raises IndexError. For negative indices the code takes other neighbours, which is not modelled"
  },
  {
   "property": "C136",
   "status": "partial",
   "theorems": [
    "Xmps.EqMps.eq_spec",
    "Xmps.EqMps.ne_spec",
    "Xmps.EqMps.eq_prefix",
    "Xmps.EqMps.eq_broadcast",
    "Xmps.EqMps.eq_broadcast_iff",
    "Xmps.EqMps.eq_raises",
    "Xmps.EqMps.eq_asymmetric"
   ],
   "note": "proved for lists with the same shapes; violated: a chain is equal to every longer one that begins with it, shapes are broadcast so that different states can be equal, bonds of different dimensions greater than one raise ValueError, and the tolerance is not symmetric"
  },
  {
   "property": "C137",
   "status": "partial",
   "theorems": [
    "Xmps.FPEPS.eq_same_size",
    "Xmps.FPEPS.eq_common",
    "Xmps.FPEPS.eq_rows"
   ],
   "note": "proved for networks of the same size, with dimensions and coordinates below 99999; violated: rows that only one of the networks has are not compared, so a network is equal to the one that goes on below it"
  },
  {
   "property": "C138",
   "status": "partial",
   "theorems": [
    "Xmps.FMPO.random_holds",
    "Xmps.FMPO.random_short",
    "Xmps.FMPO.trivial_short",
    "Xmps.FMPO.trivial_mul",
    "Xmps.FMPO.mul_trivial",
    "Xmps.FMPO.rotate_unrotate"
   ],
   "note": "proved for two or more sites; violated for one site (and for none): two tensors are made, although L says one"
  },
  {
   "property": "C139",
   "status": "proved",
   "theorems": [
    "Xmps.LeftLoop.lt_eq_inner",
    "Xmps.LeftLoop.ltInner_eq",
    "Xmps.LeftLoop.lt_eq",
    "Xmps.LeftLoop.lt_spec"
   ],
   "note": "for sites that are natural numbers; the compiled function and lt_ have the same text and are one definition"
  },
  {
   "property": "C14",
   "status": "partial",
   "theorems": [
    "Xmps.FMPS.overlap_inner",
    "Xmps.FMPS.overlap_length",
    "Xmps.FMPS.fullOverlap_inner",
    "Xmps.FMPS.overlap_star_fullOverlap_partial",
    "Xmps.FMPS.norm_real_nonneg",
    "Xmps.FMPS.overlap_ne_fullOverlap"
   ],
   "note": "both are inner products but conjugates of each other; agreement violated (negation proved)"
  },
  {
   "property": "C140",
   "status": "proved",
   "theorems": [
    "Xmps.IvMPS.randomL_spec",
    "Xmps.IvMPS.random_spec",
    "Xmps.IvMPS.transferMatrix_spec",
    "Xmps.IvMPS.transferMatrix_period"
   ],
   "note": "the numbers drawn are parameters; sorting is stable merge sort over the reals (exact arithmetic)"
  },
  {
   "property": "C141",
   "status": "partial",
   "theorems": [
    "Xmps.TFD.fs_spec",
    "Xmps.TFD.fs_raises",
    "Xmps.TFD.splitVL_spec",
    "Xmps.TFD.splitVL_raises"
   ],
   "note": "proved for sites and left bonds whose dimensions are squares; otherwise ValueError. That M is not the exchange of the copies on the bond is C132"
  },
  {
   "property": "C15",
   "status": "partial",
   "theorems": [
    "Xmps.FMPS.leftOrthogonalise_spec",
    "Xmps.FMPS.rightOrthogonalise_spec",
    "Xmps.FMPS.mixedOrthogonalise_spec",
    "Xmps.FMPS.mixedOrthogonalise_norm_lost",
    "Xmps.qrLaw_exists",
    "Xmps.rqLaw_exists"
   ],
   "note": "everything holds except: mixed_orthogonalise(0) stores norm_ = 1, so norm_ times the new state is not the old state (mixedOrthogonalise_norm_lost); QR/RQ are parameters with the LAPACK contract"
  },
  {
   "property": "C16",
   "status": "partial",
   "theorems": [
    "Xmps.FMPS.leftCanonicalise_spec",
    "Xmps.FMPS.rightCanonicalise_spec",
    "Xmps.FMPS.leftCanonicalise_sweep",
    "Xmps.FMPS.rightCanonicalise_sweep",
    "Xmps.FMPS.mixedCanonicalise_spec",
    "Xmps.FMPS.leftCanonicalise_not_preserved",
    "Xmps.Spec.SchmidtAt.perm",
    "Xmps.Spec.SchmidtAt.sum_norm"
   ],
   "note": "proved for an eig that returns orthonormal eigenvectors with zero eigenvalues last (EigOrthoLaw, shown satisfiable); false for numpy.linalg.eig's documented contract: leftCanonicalise_not_preserved returns the zero vector for |1>|0> with a redundant bond"
  },
  {
   "property": "C17",
   "status": "proved",
   "theorems": [
    "Xmps.FMPS.leftCanonicalise_spec",
    "Xmps.FMPS.rightCanonicalise_spec",
    "Xmps.FMPS.leftCanonicalise_sweep",
    "Xmps.FMPS.rightCanonicalise_sweep",
    "Xmps.schmidt_rank_bond",
    "Xmps.shannon_le_log",
    "Xmps.shannon_eq_zero"
   ],
   "note": "contracts SVDLaw and EigOrthoLaw; all tensors with the same local dimension, no empty axes"
  },
  {
   "property": "C18",
   "status": "proved",
   "theorems": [
    "Xmps.FMPS.leftFromState_spec",
    "Xmps.FMPS.rightFromState_spec"
   ],
   "note": "state tensors with all axes of the same extent d >= 1; contract SVDLaw"
  },
  {
   "property": "C19",
   "status": "proved",
   "theorems": [
    "Xmps.FMPS.createStructure_spec",
    "Xmps.FMPS.createStructure_symm",
    "Xmps.FMPS.bondAt_ends",
    "Xmps.FMPS.createStructure_one"
   ],
   "note": "proved for L>=2 as claimed; L=1 raises IndexError (proved)"
  },
  {
   "property": "C20",
   "status": "partial",
   "theorems": [
    "Xmps.FMPS.deserialize_serialize",
    "Xmps.FMPS.deserialize_standard",
    "Xmps.FMPS.joinReal_serializeReal",
    "Xmps.FMPS.deserializeReal_serializeReal",
    "Xmps.FMPS.deserializeReal_standard",
    "Xmps.FMPS.deserialize_nonstandard"
   ],
   "note": "with a structure: all chains; without: standard structure only, otherwise violated (deserialize_nonstandard)"
  },
  {
   "property": "C21",
   "status": "partial",
   "theorems": [
    "Xmps.FMPS.load_store",
    "Xmps.FMPS.load_store_structured",
    "Xmps.FMPS.load_other_name",
    "Xmps.FMPS.load_store_fails"
   ],
   "note": "holds for names ending in .npy; violated otherwise (load_store_fails)"
  },
  {
   "property": "C22",
   "status": "proved",
   "theorems": [
    "Xmps.FMPS.mpsPad_spec",
    "Xmps.FMPS.expandPad_spec",
    "Xmps.FMPS.expand_spec",
    "Xmps.FMPS.expand_raises",
    "Xmps.FMPS.mpsPad_stale_D"
   ],
   "note": "mps_pad leaves the attribute D stale (mpsPad_stale_D)"
  },
  {
   "property": "C23",
   "status": "partial",
   "theorems": [
    "Xmps.FMPS.Ek_spec",
    "Xmps.FMPS.EkString_spec",
    "Xmps.FMPS.EL_spec",
    "Xmps.FMPS.Es_spec",
    "Xmps.FMPS.ECanon_spec",
    "Xmps.FMPS.rhoFull_spec",
    "Xmps.FMPS.rho_trace",
    "Xmps.FMPS.E_spec",
    "Xmps.FMPS.E_symmetric_partial",
    "Xmps.FMPS.E_transposed",
    "Xmps.FMPS.localOverlap_spec"
   ],
   "note": "Es, E_k, E_L, rho, local_overlap are right; E and E_ use the transposed matrix (E_spec, ECanon_spec), which is wrong for sigma_y (E_transposed)"
  },
  {
   "property": "C24",
   "status": "partial",
   "theorems": [
    "Xmps.FMPS.history_partial",
    "Xmps.FMPS.Honest.calls",
    "Xmps.FMPS.postSelect_stale",
    "Xmps.FMPS.mixedCanonicalise_stale",
    "Xmps.FMPS.applyTwoSite_stale"
   ],
   "note": "holds for every sequence of left/right/mixed_orthogonalise, left/right_canonicalise, E, E_k and rho calls (history_partial); false after post_select (postSelect_stale) and after mixed_canonicalise, which records the wrong centre (mixedCanonicalise_stale) Also fails after apply_two_site (applyTwoSite_stale)."
  },
  {
   "property": "C25",
   "status": "proved",
   "theorems": [
    "Xmps.factors_even",
    "Xmps.factors_square",
    "Xmps.factors_not_recovered"
   ],
   "note": ""
  },
  {
   "property": "C26",
   "status": "partial",
   "theorems": [
    "Xmps.Ham.toFull_partial",
    "Xmps.Ham.toFull_matrices",
    "Xmps.Ham.toFull_strings",
    "Xmps.Ham.toFull_two",
    "Xmps.Ham.toFull_two_wrong",
    "Xmps.Ham.toFull_small",
    "Xmps.Ham.init_field"
   ],
   "note": "As written the property is false: Hamiltonian(strings).to_full(L) always raises AttributeError (toFull_strings). Proved for L>=3: to_matrices(L) fed back through Hamiltonian(matrices=..).to_full() is the sum of couplings over bonds and fields over sites, for every dictionary of fields and couplings whose non-zero coefficients exceed 2e-8. On two sites the fields are halved (toFull_two, toFull_two_wrong); coefficients below 1e-8 are dropped (toFull_small)."
  },
  {
   "property": "C27",
   "status": "partial",
   "theorems": [
    "Xmps.Ham.toMpo_spec",
    "Xmps.Ham.toMpo_eq_toFull",
    "Xmps.Ham.toMpo_raises"
   ],
   "note": "The MPO contracted between boundary indices 0 and 4 is the Hamiltonian for every length and every Heisenberg-type dictionary; other dictionaries are refused. Agreement with to_full only for L>=3, through matrices= (to_full from strings raises; see C26)."
  },
  {
   "property": "C28",
   "status": "partial",
   "theorems": [
    "Xmps.Spin.nBody_spec",
    "Xmps.Spin.nBody_high",
    "Xmps.Spin.nBody_low",
    "Xmps.Spin.nBody_commute",
    "Xmps.Spin.nBody_mul",
    "Xmps.Spin.nBody_d"
   ],
   "note": "Placement, commutation and product proved for all op, n and 1<=i<=n; i>n raises. The claim that every out-of-range site raises is false: i<=0 returns the identity (nBody_low). With d given the chain has n+1 sites and i counts from 0 (nBody_d)."
  },
  {
   "property": "C29",
   "status": "proved",
   "theorems": [
    "Xmps.Spin.spins_hermitian",
    "Xmps.Spin.spins_comm",
    "Xmps.Spin.spins_casimir",
    "Xmps.Spin.paulis_eq",
    "Xmps.Spin.ladders_eq",
    "Xmps.Spin.ladders_order"
   ],
   "note": "All spins n/2. Also: paulis ignores its argument; ladders returns [S-, S+] while its callers unpack sp, sm."
  },
  {
   "property": "C30",
   "status": "proved",
   "theorems": [
    "Xmps.Spin.su_length",
    "Xmps.Spin.su_hermitian_traceless",
    "Xmps.Spin.su_norm",
    "Xmps.Spin.su_orthogonal",
    "Xmps.Spin.su_complete",
    "Xmps.Spin.su_components"
   ],
   "note": "All N; components is a two-sided inverse."
  },
  {
   "property": "C31",
   "status": "proved",
   "theorems": [
    "Xmps.Spin.leviCivita_perm",
    "Xmps.Spin.leviCivita_repeat",
    "Xmps.Spin.leviCivita_swap"
   ],
   "note": ""
  },
  {
   "property": "C32",
   "status": "proved",
   "theorems": [
    "Xmps.Spin.nsphere_norm"
   ],
   "note": "All lengths, including the empty vector."
  },
  {
   "property": "C33",
   "status": "partial",
   "theorems": [
    "Xmps.TMap.asmatrix_ok",
    "Xmps.TMap.mv_spec",
    "Xmps.TMap.mvr_spec",
    "Xmps.TransferMatrix.asmatrix_ok",
    "Xmps.TransferMatrix.mv_spec",
    "Xmps.TransferMatrix.mvr_partial",
    "Xmps.TransferMatrix.mvr_transposed",
    "Xmps.TransferMatrix.mvr_not_adjoint"
   ],
   "note": "All of it holds for Map; TransferMatrix.mvr is the transpose, not the adjoint (mvr_not_adjoint)."
  },
  {
   "property": "C34",
   "status": "partial",
   "theorems": [
    "Xmps.Cache.run_fresh",
    "Xmps.Cache.run_collision",
    "Xmps.Cache.run_collision'",
    "Xmps.Cache.christoffel_cached",
    "Xmps.Cache.christoffel_collision",
    "Xmps.flipF1_flipF1",
    "Xmps.flipF2_flipF2"
   ],
   "note": "holds for chains of up to 11 sites; violated from 12 sites on (key collisions) and for christoffel (cached value lacks the change of basis)"
  },
  {
   "property": "C35",
   "status": "partial",
   "theorems": [
    "Xmps.Tdvp.mpsList_run",
    "Xmps.Tdvp.mpsList_run_clear",
    "Xmps.Tdvp.mpsList_clear_fails",
    "Xmps.Tdvp.mpsListEd_length"
   ],
   "note": "holds without clear, and with clear when the bond dimension is constant; violated after clear otherwise; the step, canonicalisation and resize are parameters that keep / produce the standard bond structure"
  },
  {
   "property": "C36",
   "status": "partial",
   "theorems": [
    "Xmps.Tdvp.rk4_scheme",
    "Xmps.Tdvp.rk4_linear",
    "Xmps.Tdvp.rk4_scalar",
    "Xmps.Tdvp.rk4_order",
    "Xmps.Tdvp.rk4i_scheme",
    "Xmps.Tdvp.rk4i_scalar",
    "Xmps.Tdvp.rk4i_wrong",
    "Xmps.Tdvp.euler_scheme"
   ],
   "note": "fTDVP.rk4: proved for every vector field; iTDVP.rk4: violated (rk4i_scalar, rk4i_wrong)"
  },
  {
   "property": "C37",
   "status": "proved",
   "theorems": [
    "Xmps.fromFMPS_amplitude",
    "Xmps.fromFMPS_symmetric",
    "Xmps.symmetry_exchanges",
    "Xmps.symmetry_involution",
    "Xmps.symmetrise_symmetric"
   ],
   "note": "symmetry needs extents that are squares (SquareChain), which from_fMPS establishes"
  },
  {
   "property": "C38",
   "status": "partial",
   "theorems": [
    "Xmps.FPEPS.T_reflection",
    "Xmps.FPEPS.R_reflection",
    "Xmps.FPEPS.U_reflection",
    "Xmps.FPEPS.pepsAmp_tT",
    "Xmps.FPEPS.pepsAmp_tR",
    "Xmps.FPEPS.pepsAmp_tU",
    "Xmps.FPEPS.R_centre",
    "Xmps.FPEPS.U_centre",
    "Xmps.FPEPS.R_centre_outside"
   ],
   "note": "Involution, matched bonds and permuted amplitudes proved for every grid; the recorded orthogonality centre follows its tensor only on square grids (R_centre, U_centre give the exact condition, R_centre_outside a grid where it leaves the grid)."
  },
  {
   "property": "C39",
   "status": "proved",
   "theorems": [
    "Xmps.FMPS.matchGaugeTo_spec",
    "Xmps.polarLaw_exists"
   ],
   "note": "Also shows that the overlap of matched tensors is positive semidefinite."
  },
  {
   "property": "C40",
   "status": "proved",
   "theorems": [
    "Xmps.call_frame",
    "Xmps.history_frame",
    "Xmps.reachable_separate",
    "Xmps.copies_independent",
    "Xmps.apply_new",
    "Xmps.orthogonalise_refines",
    "Xmps.applyTwoSite_refines",
    "Xmps.alias_changes"
   ],
   "note": "every history of calls from the empty heap, with exceptions caught; the canonicalisations are modelled as assignments of the final fresh arrays; fMPS(x.data) is not a copy: it shares the list (alias_changes)"
  },
  {
   "property": "C41",
   "status": "partial",
   "theorems": [
    "Xmps.FMPS.leftTransfer_spec",
    "Xmps.FMPS.leftTransfer_comp",
    "Xmps.FMPS.rightTransfer_real_partial",
    "Xmps.FMPS.rightTransfer_swaps",
    "Xmps.FMPS.rightTransfer_shift",
    "Xmps.FMPS.rightTransferOne_eq",
    "Xmps.FMPS.getEnvs_diag_partial",
    "Xmps.FMPS.getEnvs_loses"
   ],
   "note": "left_transfer: value and composition for every chain, every operator and any trailing axes. right_transfer is right only for real tensors and symmetric operators (indices are exchanged at every site: rightTransfer_swaps), its result is shifted by one position (rightTransfer_shift) and ret_all=False returns the input (rightTransferOne_eq). get_envs is right exactly as far as the environments are diagonal (getEnvs_diag_partial); off-diagonal entries are lost (getEnvs_loses)."
  },
  {
   "property": "C42",
   "status": "partial",
   "theorems": [
    "Xmps.FMPO.mul_recombine",
    "Xmps.FMPO.mulMps_recombine",
    "Xmps.FMPO.mulMps_elem",
    "Xmps.FMPO.mul_elem",
    "Xmps.FMPO.recombine_ok",
    "Xmps.FMPO.fromMps_elem",
    "Xmps.FMPO.transposeUd_elem",
    "Xmps.FMPO.recombine_single"
   ],
   "note": "proved for every pair of MPOs with at least two sites (open or closed into a ring); false for one site, where recombine raises ValueError. recombine is the conjugate transpose, so an MPO times an MPS gives the matrix times the conjugated vector."
  },
  {
   "property": "C43",
   "status": "proved",
   "theorems": [
    "Xmps.sympmat_sq",
    "Xmps.sympmat_transpose",
    "Xmps.sympmat_orthogonal",
    "Xmps.changebasis_perm",
    "Xmps.changebasis_sympmat"
   ],
   "note": ""
  },
  {
   "property": "C44",
   "status": "proved",
   "theorems": [
    "Xmps.unitaryExtension_spec",
    "Xmps.nullLaw_exists"
   ],
   "note": "For every isometry and every D; when D is smaller than max(Q.shape) it is ignored."
  },
  {
   "property": "C45",
   "status": "proved",
   "theorems": [
    "Xmps.isRightCanonical_iff",
    "Xmps.isLeftCanonical_iff",
    "Xmps.isRightCanonical_spec",
    "Xmps.isLeftCanonical_spec",
    "Xmps.FMPS.leftCanonicalise_passes",
    "Xmps.FMPS.rightCanonicalise_passes"
   ],
   "note": "Exact meaning of the canonicality tests for all tolerances, and that canonicalised chains pass them."
  },
  {
   "property": "C46",
   "status": "partial",
   "theorems": [
    "Xmps.IMPS.canonicalise_right",
    "Xmps.IMPS.canonicalise_left",
    "Xmps.IMPS.canonicalise_mixed",
    "Xmps.IMPS.mixed_not_normalised",
    "Xmps.IMPS.eigs_ok",
    "Xmps.cholLaw_exists"
   ],
   "note": "canonicalise('r') and ('l') proved for every tensor with positive definite leading fixed points; 'm' leaves the eigenvalue tr(l^T r), refuted as a normalised form by a witness with eigenvalue 4/5. eigs_ok: the eigensolver may return any multiple whose phase is not purely imaginary. One tensor in the unit cell; that the leading eigenvalue is simple is not derived from injectivity."
  },
  {
   "property": "C47",
   "status": "partial",
   "theorems": [
    "Xmps.Tdvp.stopDir_fresh",
    "Xmps.Tdvp.stopDir_next",
    "Xmps.Tdvp.stops_ten",
    "Xmps.Tdvp.stops_eleven",
    "Xmps.Tdvp.stops_other"
   ],
   "note": "new directory: always; consecutive numbering: the first ten runs in a directory without other entries of that prefix; violated beyond"
  },
  {
   "property": "C48",
   "status": "partial",
   "theorems": [
    "Xmps.FMPS.dAdt_gauge",
    "Xmps.FMPS.dAdt_leftCanonicalise",
    "Xmps.projector_ok",
    "Xmps.FMPS.dAdtFull_gauge",
    "Xmps.FMPS.dAdtFull_leftCanonicalise",
    "Xmps.FMPS.dAdt_not_gauge"
   ],
   "note": "lists of two-site terms and matrices on the whole chain (fullH=True), on chains whose environments are diagonal and positive (get_envs returns only their diagonals otherwise); proved in particular after left_canonicalise(). Refuted for a chain whose environments are not diagonal (dAdt_not_gauge)."
  },
  {
   "property": "C49",
   "status": "partial",
   "theorems": [
    "Xmps.FMPS.extract_import",
    "Xmps.FMPS.import_extract",
    "Xmps.FMPS.extract_isometry",
    "Xmps.FMPS.import_isometry",
    "Xmps.FMPS.dAdt_extract",
    "Xmps.FMPS.tangentSpaceDims_spec",
    "Xmps.FMPS.import_raises"
   ],
   "note": "Holds for chains with diagonal positive environments whose sites without tangent vectors come first; violated otherwise: import_tangent_vector raises for |0>(|00>+|11>)."
  },
  {
   "property": "C50",
   "status": "proved",
   "theorems": [
    "Xmps.VFMPS.roundTrip"
   ],
   "note": "invertibility is proved, not assumed (the rank reduction removes zero weights); the stored matrices hold the squared Schmidt coefficients"
  },
  {
   "property": "C51",
   "status": "proved",
   "theorems": [
    "Xmps.Gates.embed_unitary",
    "Xmps.Gates.deembed_embed",
    "Xmps.Gates.nullRow_exists"
   ],
   "note": "null_space is a parameter with the contract NullRow"
  },
  {
   "property": "C52",
   "status": "partial",
   "theorems": [
    "Xmps.Gates.swap_mul_swap",
    "Xmps.Gates.swap_kron",
    "Xmps.Gates.swapSymmetrise_symm",
    "Xmps.Gates.swapSymmetrise_eq_iff",
    "Xmps.Gates.swapSymmetrise_idem",
    "Xmps.Gates.isSwapSymmetric_iff",
    "Xmps.Gates.swapAntisymmetrise_wrong"
   ],
   "note": "swap_antisymmetrise violated"
  },
  {
   "property": "C53",
   "status": "proved",
   "theorems": [
    "Xmps.Gates.CZ_CNOT_involutions",
    "Xmps.Gates.controlled",
    "Xmps.Gates.CZ_swap",
    "Xmps.Gates.CRy_group"
   ],
   "note": ""
  },
  {
   "property": "C54",
   "status": "proved",
   "theorems": [
    "Xmps.FMPS.entanglementEntropy_spec",
    "Xmps.Spec.SchmidtAt.perm",
    "Xmps.Spec.SchmidtAt.sum_norm"
   ],
   "note": "weights up to 1e-8 are left out by the code; contracts SVDLaw, EigOrthoLaw"
  },
  {
   "property": "C55",
   "status": "partial",
   "theorems": [
    "Xmps.FMPS.energy_leftCanonicalise",
    "Xmps.FMPS.energy_rightCanonicalise",
    "Xmps.FMPS.energy_diag_partial",
    "Xmps.FMPS.energy_wrong"
   ],
   "note": "Proved for all chains after either canonicalisation, and for all chains with diagonal environments; for a chain that has not been canonicalised the value is wrong (energy_wrong). energy(H, fullH=True) is E_L (C14)."
  },
  {
   "property": "C56",
   "status": "partial",
   "theorems": [
    "Xmps.isRightEnvCanonical_partial",
    "Xmps.isLeftEnvCanonical_partial",
    "Xmps.isRightEnvCanonical_last",
    "Xmps.isLeftEnvCanonical_last",
    "Xmps.isFullRank_spec",
    "Xmps.hasTrace1_spec"
   ],
   "note": "The statement holds for all but the last tensor of the chain; isRightEnvCanonical_last and isLeftEnvCanonical_last show the last one is never checked."
  },
  {
   "property": "C57",
   "status": "proved",
   "theorems": [
    "Xmps.embed_spec",
    "Xmps.deembed_embed"
   ],
   "note": ""
  },
  {
   "property": "C58",
   "status": "proved",
   "theorems": [
    "Xmps.uqr_unique",
    "Xmps.uqr_fact",
    "Xmps.uqr_degenerate",
    "Xmps.urq_fact"
   ],
   "note": "numpy 1 sign; uqr_degenerate is the failure for rank deficient matrices."
  },
  {
   "property": "C59",
   "status": "proved",
   "theorems": [
    "Xmps.TFD.E_spec",
    "Xmps.TFD.Es_spec",
    "Xmps.TFD.E_double"
   ],
   "note": "the matrix acts transposed, as in fMPS.E"
  },
  {
   "property": "C60",
   "status": "partial",
   "theorems": [
    "Xmps.FPEPS.overlap_eq",
    "Xmps.FPEPS.overlap_conj",
    "Xmps.FPEPS.norm_eq",
    "Xmps.FPEPS.apply_eq",
    "Xmps.FPEPS.expval_eq",
    "Xmps.FPEPS.normalise_norm",
    "Xmps.FPEPS.normalise_product",
    "Xmps.FPEPS.overlap_single_column"
   ],
   "note": "overlap, norm, apply, E and normalise for every open grid with at least two columns; with one column overlap raises ValueError (overlap_single_column), so the claim fails there."
  },
  {
   "property": "C61",
   "status": "partial",
   "theorems": [
    "Xmps.IMPS.E_vidal",
    "Xmps.IMPS.E_right",
    "Xmps.IMPS.E_left",
    "Xmps.IMPS.E_mixed",
    "Xmps.IMPS.E_transposed",
    "Xmps.IMPS.infExpect_identity",
    "Xmps.IMPS.infExpect_scale"
   ],
   "note": "E(op) proved correct. E(op, 'r'/'l') gives the value of the transpose, 'm' that times tr(l^T r); witness E(Y)=1, E(Y,'r')=-1. real_if_close left out."
  },
  {
   "property": "C62",
   "status": "partial",
   "theorems": [
    "Xmps.IMPS.energy_eq",
    "Xmps.IMPS.energy_ok_partial",
    "Xmps.IMPS.energy_wrong"
   ],
   "note": "energy_eq gives the value for every tensor: the fixed point r enters transposed. Right when r is symmetric (energy_ok_partial), refuted otherwise: 1/17 for 1/2 (energy_wrong)."
  },
  {
   "property": "C63",
   "status": "proved",
   "theorems": [
    "Xmps.IMPS.mixed_spec",
    "Xmps.IMPS.lmixed_spec",
    "Xmps.IMPS.rmixed_spec",
    "Xmps.IMPS.lmixed_fixed",
    "Xmps.Spec.FixedPoints.injective",
    "Xmps.rqUpper_exists"
   ],
   "note": "partial correctness for any number of rounds, with the invariant that the iterates stay invertible; that the iteration converges is not shown beyond lmixed_fixed."
  },
  {
   "property": "C64",
   "status": "proved",
   "theorems": [
    "Xmps.FMPS.dAdt_tdvp",
    "Xmps.FMPS.dAdt_norm",
    "Xmps.FMPS.dAdt_project",
    "Xmps.FMPS.dAdt_best",
    "Xmps.FMPS.dAdt_project_all",
    "Xmps.FMPS.dAdt_best_all",
    "Xmps.FMPS.dAdt_exact",
    "Xmps.FMPS.dAdt_energy",
    "Xmps.FMPS.fullEnvs_leftCanonicalise",
    "Xmps.FMPS.dAdt_leftCanonicalise",
    "Xmps.FMPS.dAdtFull_tdvp",
    "Xmps.FMPS.dAdtFull_norm",
    "Xmps.FMPS.dAdtFull_project",
    "Xmps.FMPS.dAdtFull_best",
    "Xmps.FMPS.dAdtFull_energy",
    "Xmps.FMPS.dAdtFull_leftCanonicalise",
    "Xmps.FMPS.dAdt_line",
    "Xmps.FMPS.dAdt_line_energy"
   ],
   "note": "contracts: Cholesky (triangular), exact inverse, null_space, SVD, eig; both branches of dA_dt"
  },
  {
   "property": "C65",
   "status": "partial",
   "theorems": [
    "Xmps.FMPS.tangentState_spec",
    "Xmps.FMPS.tangentState_raises"
   ],
   "note": "Proved when vL is passed; violated for the default vL=None, which raises for every site."
  },
  {
   "property": "C66",
   "status": "proved",
   "theorems": [
    "Xmps.FMPS.tangentSpaceBasis_eye",
    "Xmps.FMPS.tangentSpaceBasis_ortho"
   ],
   "note": ""
  },
  {
   "property": "C67",
   "status": "proved",
   "theorems": [
    "Xmps.Spin.expGen_special",
    "Xmps.Spin.expGen_length",
    "Xmps.Spin.SU_special",
    "Xmps.Spin.SU4_special",
    "Xmps.Spin.SU8_special",
    "Xmps.Spin.U4_special",
    "Xmps.Spin.U4s_special",
    "Xmps.Spin.SU_surjective",
    "Xmps.Spin.U4s_surjective"
   ],
   "note": "U1 and U2 subscript the function locals and always raise TypeError"
  },
  {
   "property": "C68",
   "status": "proved",
   "theorems": [
    "Xmps.Spin.lambdas_hermitian_traceless",
    "Xmps.Spin.lambdas_norm",
    "Xmps.Spin.lambdas_orthogonal",
    "Xmps.Spin.lambdas_basis",
    "Xmps.Spin.slambdas_hermitian_traceless",
    "Xmps.Spin.slambdas_swap",
    "Xmps.Spin.slambdas_basis",
    "Xmps.Spin.slambdas_closed"
   ],
   "note": ""
  },
  {
   "property": "C69",
   "status": "partial",
   "theorems": [
    "Xmps.Spin.antiferro_pauli",
    "Xmps.Spin.ferro_not_pauli",
    "Xmps.Spin.ferro_partial"
   ],
   "note": "violated for ferro: its third component is half of what the relations require"
  },
  {
   "property": "C70",
   "status": "proved",
   "theorems": [
    "Xmps.Spin.insu2N_spec",
    "Xmps.Spin.SU_insu2N",
    "Xmps.Spin.SU2N_spec",
    "Xmps.Spin.insu2N_length",
    "Xmps.Spin.insu2N_mid_raises"
   ],
   "note": ""
  },
  {
   "property": "C71",
   "status": "partial",
   "theorems": [
    "Xmps.Spin.extractv_spec",
    "Xmps.Spin.toNewV_spec",
    "Xmps.Spin.equalUpToPhase_sound",
    "Xmps.Spin.equalUpToPhase_iff_partial",
    "Xmps.Spin.equalUpToPhase_misses",
    "Xmps.Spin.logLaw_exists"
   ],
   "note": "equal_up_to_phase is violated when the top left entry is zero; the rest holds"
  },
  {
   "property": "C72",
   "status": "proved",
   "theorems": [
    "Xmps.Tdvp.evolve_zero",
    "Xmps.Tdvp.evolve_schroedinger",
    "Xmps.Tdvp.edint_terms",
    "Xmps.Tdvp.edint_full",
    "Xmps.Tdvp.edint_times",
    "Xmps.Tdvp.edint_conserves",
    "Xmps.Tdvp.edEnergy_eq_energy",
    "Xmps.Tdvp.matrix_eq_toFull",
    "Xmps.Tdvp.edint_short",
    "Xmps.Tdvp.edint_noterms",
    "Xmps.Tdvp.edint_uneven"
   ],
   "note": "scipy expm_multiply is the exact exponential; for unequally spaced times the entries are not the states at T[k] (edint_uneven)"
  },
  {
   "property": "C73",
   "status": "proved",
   "theorems": [
    "Xmps.Tdvp.edOtoc_spec",
    "Xmps.Tdvp.edOtoc_nonneg",
    "Xmps.Tdvp.edOtoc_refuses"
   ],
   "note": "only for fullH=True, which the code asserts; T must have two entries although dt is unused"
  },
  {
   "property": "C74",
   "status": "partial",
   "theorems": [
    "Xmps.Cell.init_good",
    "Xmps.Cell.deserialize_serialize",
    "Xmps.Cell.deserializeReal_serializeReal",
    "Xmps.Cell.load_store",
    "Xmps.Cell.store_other",
    "Xmps.Cell.load_store_fails"
   ],
   "note": "holds for names that end in .npy; with any other name load does not find the file (np.save appends .npy)"
  },
  {
   "property": "C75",
   "status": "partial",
   "theorems": [
    "Xmps.IMPS.overlap_spec",
    "Xmps.TMap.leftFixedPoint_ok",
    "Xmps.IMPS.leftFixedPoint_nan",
    "Xmps.leadingLaw_exists"
   ],
   "note": "proved whenever the value is not nan, D > 1; left_fixed_point divides by the phase of the first entry of the eigenvector, which is 0/0 for some left isometries (leftFixedPoint_nan)"
  },
  {
   "property": "C76",
   "status": "partial",
   "theorems": [
    "Xmps.FMPS.call_shifted",
    "Xmps.Cell.call_shifted"
   ],
   "note": "the code returns x[k+1]: refuted for every chain, with the exact behaviour"
  },
  {
   "property": "C77",
   "status": "partial",
   "theorems": [
    "Xmps.Examples.bell_spec",
    "Xmps.Examples.bell_none",
    "Xmps.Examples.bell_orthogonal",
    "Xmps.Examples.compZ_spec",
    "Xmps.Examples.compX_spec",
    "Xmps.Examples.compX_doc",
    "Xmps.Examples.iCompZ_spec"
   ],
   "note": "holds for bell and comp_z; the docstring of comp_x has 2 and 3 exchanged, and the states returned are orthogonal to the documented ones"
  },
  {
   "property": "C78",
   "status": "partial",
   "theorems": [
    "Xmps.Examples.aklt_wrong",
    "Xmps.Examples.tri_energy",
    "Xmps.Examples.tri_ground",
    "Xmps.Examples.quintet_m",
    "Xmps.Examples.quintet_top",
    "Xmps.Examples.quintet_lower"
   ],
   "note": "refuted: the factor of the middle matrix is sqrt(1/8) instead of sqrt(1/3), and the expectation value is 50/1083"
  },
  {
   "property": "C79",
   "status": "partial",
   "theorems": [
    "Xmps.IMPS.Lh_ok",
    "Xmps.IMPS.Lh_series_partial",
    "Xmps.IMPS.Lh_not_sum"
   ],
   "note": "Refuted for complex tensors (Lh_not_sum). Lh_ok: what is returned in general. Lh_series_partial: the claim if the transfer matrix is real and r symmetric."
  },
  {
   "property": "C80",
   "status": "partial",
   "theorems": [
    "Xmps.IMPS.dAdt_window_partial",
    "Xmps.IMPS.dAdt_tdvp_partial",
    "Xmps.IMPS.tangent_energy",
    "Xmps.IMPS.dAdt_not_tdvp"
   ],
   "note": "Refuted for complex tensors (dAdt_not_tdvp), because Lh is wrong there. The claim, with uniqueness, for real transfer matrix and diagonal fixed points; exact equation for every window length."
  },
  {
   "property": "C81",
   "status": "partial",
   "theorems": [
    "Xmps.IMPS.Rh_ok",
    "Xmps.IMPS.Rh_series_partial",
    "Xmps.IMPS.Rh_not_sum"
   ],
   "note": "Refuted (Rh_not_sum): r occurs twice in the right-hand side. Rh_ok: what is returned in general. Rh_series_partial: for a right canonical tensor with r = c*1 it is c times the sum."
  },
  {
   "property": "C82",
   "status": "proved",
   "theorems": [
    "Xmps.IvMPS.canonicalise_spec",
    "Xmps.IvMPS.canonicalise_ok",
    "Xmps.simpleRight_of_left"
   ],
   "note": "One pair in the unit cell; eigensolver as in ArnLaw, which excludes an eigenvector with purely imaginary first entry."
  },
  {
   "property": "C83",
   "status": "partial",
   "theorems": [
    "Xmps.IvMPS.E_symmetric_partial",
    "Xmps.IvMPS.E_transpose",
    "Xmps.IvMPS.E_not_expectation"
   ],
   "note": "The code measures the transpose of op: E_transpose for all op, E_symmetric_partial for symmetric op, E_not_expectation the counterexample Y."
  },
  {
   "property": "C84",
   "status": "partial",
   "theorems": [
    "Xmps.FPEPS.add_eq_partial",
    "Xmps.FPEPS.add_not_peps",
    "Xmps.FPEPS.add_raises"
   ],
   "note": "proved when Lx and Ly of x are the numbers of columns and rows, both at least two; refuted for a 2 x 3 grid made by the constructor, which counts Lx as the number of rows; single rows and columns raise AssertionError"
  },
  {
   "property": "C85",
   "status": "partial",
   "theorems": [
    "Xmps.FPEPS.recombine_eq",
    "Xmps.FPEPS.fullOverlap_eq",
    "Xmps.FPEPS.fullOverlap_overlap",
    "Xmps.FPEPS.recombineSnake_eq_partial",
    "Xmps.FPEPS.recombineSnake_twist",
    "Xmps.FPEPS.recombineSnake_wrong"
   ],
   "note": "recombine() and full_overlap proved for all grids; recombine('row_snake') proved when at most one bond between any two rows is not trivial, and refuted otherwise: it joins mirror-image columns"
  },
  {
   "property": "C86",
   "status": "partial",
   "theorems": [
    "Xmps.FPEPS.rowContract_ok",
    "Xmps.FPEPS.colContract_ok",
    "Xmps.FPEPS.contract_ok",
    "Xmps.FPEPS.expK_eq",
    "Xmps.FPEPS.expK_reading_partial",
    "Xmps.FPEPS.expK_not_reading",
    "Xmps.FPEPS.expK_full_width"
   ],
   "note": "contract proved for all blocks; E_k proved for blocks narrower than the grid with the operator specified column by column, which is reading order for a single row or column; refuted in reading order for two by two sites; a block as wide as the grid raises ValueError"
  },
  {
   "property": "C87",
   "status": "partial",
   "theorems": [
    "Xmps.FPEPS.fromMps_eq",
    "Xmps.FPEPS.fromMps_recombine",
    "Xmps.FPEPS.fromMpsSq_eq",
    "Xmps.FPEPS.fromMpsLx_drops",
    "Xmps.FPEPS.fromMps_column"
   ],
   "note": "proved for two columns or more and chains that fill the grid; a single column gives a state of the wrong size, and with Lx given the tensors of an incomplete row are dropped without an error"
  },
  {
   "property": "C88",
   "status": "partial",
   "theorems": [
    "Xmps.FPEPS.rhoProj_ok",
    "Xmps.FPEPS.siteRed_product",
    "Xmps.FPEPS.rho_eq",
    "Xmps.FPEPS.rho_expval",
    "Xmps.FPEPS.expval_red",
    "Xmps.FPEPS.rhoProj_wrong"
   ],
   "note": "rho proved, and E as a trace; rho_proj gives the outer products of the tensors, which differ from the partial trace by the overlaps of all other sites (siteRed_product), refuted by two sites"
  },
  {
   "property": "C89",
   "status": "partial",
   "theorems": [
    "Xmps.FMPS.f2_spec",
    "Xmps.FMPS.f2_extract",
    "Xmps.FMPS.f2_normalised",
    "Xmps.FMPS.f2_same",
    "Xmps.exScaled_wrong"
   ],
   "note": "proved for normalised states (f2_normalised); for other states F2(0, j) carries a factor of the norm, because ch_l(-1) reads the last environment (f2_extract gives the exact factor, exScaled_wrong a witness); list of two-site terms only"
  },
  {
   "property": "C90",
   "status": "partial",
   "theorems": [
    "Xmps.FMPS.f1_lt",
    "Xmps.FMPS.f1_real_partial",
    "Xmps.FMPS.f1_dim",
    "Xmps.exTwist_wrong",
    "Xmps.exGap_wrong"
   ],
   "note": "false as stated: complex Hermitian terms enter transposed (exTwist_wrong), for sites further apart ket and bra bond are exchanged (exGap_wrong), local dimensions other than two raise (f1_dim). Proved for different sites, real symmetric terms and neighbouring sites or a trivial bond (f1_real_partial, with the factor of the norm at the first site); i = j is not treated"
  },
  {
   "property": "C91",
   "status": "partial",
   "theorems": [
    "Xmps.FMPS.christoffel_spec",
    "Xmps.FMPS.christoffel_closed",
    "Xmps.exQ_closed",
    "Xmps.exQ_stale"
   ],
   "note": "both forms proved for every state with full-rank environments, the closed one if dA_cache is unset or was written for the same tensors; false after the tensors changed, since the lists left in dA_cache by dA_dt are used without a check (exQ_stale: -2 for -1). closed with tensors for the first two sites is not modelled"
  },
  {
   "property": "C92",
   "status": "partial",
   "theorems": [
    "Xmps.FMPS.jac_projection",
    "Xmps.FMPS.jac_exact",
    "Xmps.FMPS.jac_real",
    "Xmps.FMPS.jac_gap",
    "Xmps.exFlip_exact",
    "Xmps.FMPS.exGap_jac"
   ],
   "note": "proved if the sites without coordinates come first; otherwise jac raises ValueError (jac_gap, exGap_jac). Local dimension two (F1 raises for others). Without the attribute old_vL (set by lyapunov), as_matrix=True; that calls sharing an id compute the same tensors is C34"
  },
  {
   "property": "C93",
   "status": "proved",
   "theorems": [
    "Xmps.FMPS.jac_hamiltonian",
    "Xmps.FMPS.jac_parts_sym"
   ],
   "note": "hypotheses on the state as for C92 (otherwise jac raises, FMPS.jac_gap)"
  },
  {
   "property": "C94",
   "status": "proved",
   "theorems": [
    "Xmps.FMPS.jac_spectrum"
   ],
   "note": "from C93"
  },
  {
   "property": "C95",
   "status": "proved",
   "theorems": [
    "Xmps.FMPS.jac_fixed",
    "Xmps.FMPS.jacFixed_none"
   ],
   "note": "scipy.linalg.polar by contract (PolarLaw); self.v (for plots) not modelled"
  },
  {
   "property": "C96",
   "status": "proved",
   "theorems": [
    "Xmps.FMPS.basisF2_spec",
    "Xmps.FMPS.jacHalves_real"
   ],
   "note": "numpy.allclose is a parameter that is true where all entries are zero (rounding is not modelled); 'eye' and 'rand' are C66"
  },
  {
   "property": "C97",
   "status": "proved",
   "theorems": [
    "Xmps.Tdvp.lyapunov_spec",
    "Xmps.Tdvp.lyapunov_total",
    "Xmps.Tdvp.lyapunov_ragged",
    "Xmps.Tdvp.lyapunovMax_spec",
    "Xmps.Tdvp.lyapunovMax_total",
    "Xmps.FMPS.jac_run",
    "Xmps.FMPS.lyapunov_sum"
   ],
   "note": "the evolution is a parameter that keeps the hypotheses of C93; the pre-evolution (D given) and the attributes of a resumed run are not modelled. With numpy >= 1.24 the default conv_window makes the first round raise ValueError (lyapunov_ragged)"
  },
  {
   "property": "C98",
   "status": "proved",
   "theorems": [
    "Xmps.Tdvp.tsInt_spec",
    "Xmps.FMPS.tsInt_symplectic"
   ],
   "note": "the evolution (invfree4, invfree) is a parameter"
  },
  {
   "property": "C99",
   "status": "proved",
   "theorems": [
    "Xmps.Tdvp.schmidts_hist",
    "Xmps.Tdvp.schmidts_ed",
    "Xmps.Spec.SchmidtAt.perm",
    "Xmps.Spec.SchmidtAt.sum_eq",
    "Xmps.weights_sum"
   ],
   "note": "histories aligned with the log of a run (C35); recorded states have the standard structure"
  }
 ]
}
