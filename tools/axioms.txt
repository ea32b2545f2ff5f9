Xmps.Cache.christoffel_cached: propext, Classical.choice, Quot.sound
Xmps.Cache.christoffel_collision: none
Xmps.Cache.run_collision: none
Xmps.Cache.run_collision': none
Xmps.Cache.run_fresh: propext, Classical.choice, Quot.sound
Xmps.Cell.call_shifted: propext, Classical.choice, Quot.sound
Xmps.Cell.deserializeReal_serializeReal: propext, Classical.choice, Quot.sound
Xmps.Cell.deserialize_serialize: propext, Classical.choice, Quot.sound
Xmps.Cell.init_good: propext, Classical.choice, Quot.sound
Xmps.Cell.load_store: propext, Classical.choice, Quot.sound
Xmps.Cell.load_store_fails: propext, Classical.choice, Quot.sound
Xmps.Cell.store_other: propext, Classical.choice, Quot.sound
Xmps.Disent.E2_ok: propext, Classical.choice, Quot.sound
Xmps.Disent.disentangler_diverges: propext, Classical.choice, Quot.sound
Xmps.Disent.disentangler_partial: propext, Classical.choice, Quot.sound
Xmps.Disent.disentangler_up: propext, Classical.choice, Quot.sound
Xmps.Disent.disentangler_up_run: propext, Classical.choice, Quot.sound
Xmps.Disent.gated_norm: propext, Classical.choice, Quot.sound
Xmps.Disent.polar_of_unitary: propext, Classical.choice, Quot.sound
Xmps.Disent.psiW_entropy: propext, Classical.choice, Quot.sound
Xmps.Disent.psiW_norm: propext, Classical.choice, Quot.sound
Xmps.Disent.purity_ok: propext, Classical.choice, Quot.sound
Xmps.Disent.renyi_nonneg: propext, Classical.choice, Quot.sound
Xmps.Disent.renyi_value: propext, Classical.choice, Quot.sound
Xmps.Disent.trSq_le: propext, Classical.choice, Quot.sound
Xmps.EqMps.eq_asymmetric: propext, Classical.choice, Quot.sound
Xmps.EqMps.eq_broadcast: propext, Classical.choice, Quot.sound
Xmps.EqMps.eq_broadcast_iff: propext, Classical.choice, Quot.sound
Xmps.EqMps.eq_prefix: propext, Classical.choice, Quot.sound
Xmps.EqMps.eq_raises: propext, Classical.choice, Quot.sound
Xmps.EqMps.eq_spec: propext, Classical.choice, Quot.sound
Xmps.EqMps.ne_spec: propext, Classical.choice, Quot.sound
Xmps.Examples.aklt_wrong: propext, Classical.choice, Quot.sound
Xmps.Examples.bell_none: propext, Classical.choice, Quot.sound
Xmps.Examples.bell_orthogonal: propext, Classical.choice, Quot.sound
Xmps.Examples.bell_spec: propext, Classical.choice, Quot.sound
Xmps.Examples.compX_doc: propext, Classical.choice, Quot.sound
Xmps.Examples.compX_spec: propext, Classical.choice, Quot.sound
Xmps.Examples.compZ_spec: propext, Classical.choice, Quot.sound
Xmps.Examples.iCat_flip: propext, Classical.choice, Quot.sound
Xmps.Examples.iCat_mixed: propext, Classical.choice, Quot.sound
Xmps.Examples.iCat_zero: propext, Classical.choice, Quot.sound
Xmps.Examples.iCompZ_spec: propext, Classical.choice, Quot.sound
Xmps.Examples.quintet_lower: propext, Classical.choice, Quot.sound
Xmps.Examples.quintet_m: propext, Classical.choice, Quot.sound
Xmps.Examples.quintet_top: propext, Classical.choice, Quot.sound
Xmps.Examples.tri_energy: propext, Classical.choice, Quot.sound
Xmps.Examples.tri_ground: propext, Classical.choice, Quot.sound
Xmps.FMPO.fromMps_elem: propext, Classical.choice, Quot.sound
Xmps.FMPO.mulMps_elem: propext, Classical.choice, Quot.sound
Xmps.FMPO.mulMps_recombine: propext, Classical.choice, Quot.sound
Xmps.FMPO.mul_elem: propext, Classical.choice, Quot.sound
Xmps.FMPO.mul_recombine: propext, Classical.choice, Quot.sound
Xmps.FMPO.mul_trivial: propext, Classical.choice, Quot.sound
Xmps.FMPO.random_holds: propext, Classical.choice, Quot.sound
Xmps.FMPO.random_short: propext, Classical.choice, Quot.sound
Xmps.FMPO.recombine_ok: propext, Classical.choice, Quot.sound
Xmps.FMPO.recombine_single: propext, Classical.choice, Quot.sound
Xmps.FMPO.rotate_unrotate: propext, Classical.choice, Quot.sound
Xmps.FMPO.transposeUd_elem: propext, Classical.choice, Quot.sound
Xmps.FMPO.trivial_mul: propext, Classical.choice, Quot.sound
Xmps.FMPO.trivial_short: propext, Classical.choice, Quot.sound
Xmps.FMPS.ECanon_spec: propext, Classical.choice, Quot.sound
Xmps.FMPS.EL_spec: propext, Classical.choice, Quot.sound
Xmps.FMPS.E_spec: propext, Classical.choice, Quot.sound
Xmps.FMPS.E_symmetric_partial: propext, Classical.choice, Quot.sound
Xmps.FMPS.E_transposed: propext, Classical.choice, Quot.sound
Xmps.FMPS.EkString_spec: propext, Classical.choice, Quot.sound
Xmps.FMPS.Ek_spec: propext, Classical.choice, Quot.sound
Xmps.FMPS.Es_spec: propext, Classical.choice, Quot.sound
Xmps.FMPS.Honest.calls: propext, Classical.choice, Quot.sound
Xmps.FMPS.add_not_sum_one_site: propext, Classical.choice, Quot.sound
Xmps.FMPS.add_one_site_drops_other: propext, Classical.choice, Quot.sound
Xmps.FMPS.add_recombine_partial: propext, Classical.choice, Quot.sound
Xmps.FMPS.add_state_partial: propext, Classical.choice, Quot.sound
Xmps.FMPS.applyTwoSiteIsometry_chain: propext, Classical.choice, Quot.sound
Xmps.FMPS.applyTwoSiteIsometry_neighbours_partial: propext, Classical.choice, Quot.sound
Xmps.FMPS.applyTwoSiteIsometry_same: propext, Classical.choice, Quot.sound
Xmps.FMPS.applyTwoSite_neighbours: propext, Classical.choice, Quot.sound
Xmps.FMPS.applyTwoSite_onesite: propext, Classical.choice, Quot.sound
Xmps.FMPS.applyTwoSite_onesite_raises: propext, Classical.choice, Quot.sound
Xmps.FMPS.applyTwoSite_order: propext, Classical.choice, Quot.sound
Xmps.FMPS.applyTwoSite_spec: propext, Classical.choice, Quot.sound
Xmps.FMPS.applyTwoSite_stale: propext, Classical.choice, Quot.sound
Xmps.FMPS.applyTwoSite_state: propext, Classical.choice, Quot.sound
Xmps.FMPS.applyTwoSite_svd: propext, Classical.choice, Quot.sound
Xmps.FMPS.apply_comm: propext, Classical.choice, Quot.sound
Xmps.FMPS.apply_comp: propext, Classical.choice, Quot.sound
Xmps.FMPS.apply_state: propext, Classical.choice, Quot.sound
Xmps.FMPS.approxOverlap_product: propext, Classical.choice, Quot.sound
Xmps.FMPS.basisF2_spec: propext, Classical.choice, Quot.sound
Xmps.FMPS.bondAt_ends: propext
Xmps.FMPS.call_shifted: propext, Quot.sound
Xmps.FMPS.christoffel_closed: propext, Classical.choice, Quot.sound
Xmps.FMPS.christoffel_spec: propext, Classical.choice, Quot.sound
Xmps.FMPS.constructor_holds: propext, Quot.sound
Xmps.FMPS.createStructure_one: propext
Xmps.FMPS.createStructure_spec: propext, Classical.choice, Quot.sound
Xmps.FMPS.createStructure_symm: propext, Classical.choice, Quot.sound
Xmps.FMPS.dAdtFull_best: propext, Classical.choice, Quot.sound
Xmps.FMPS.dAdtFull_energy: propext, Classical.choice, Quot.sound
Xmps.FMPS.dAdtFull_gauge: propext, Classical.choice, Quot.sound
Xmps.FMPS.dAdtFull_leftCanonicalise: propext, Classical.choice, Quot.sound
Xmps.FMPS.dAdtFull_norm: propext, Classical.choice, Quot.sound
Xmps.FMPS.dAdtFull_project: propext, Classical.choice, Quot.sound
Xmps.FMPS.dAdtFull_tdvp: propext, Classical.choice, Quot.sound
Xmps.FMPS.dAdt_best: propext, Classical.choice, Quot.sound
Xmps.FMPS.dAdt_best_all: propext, Classical.choice, Quot.sound
Xmps.FMPS.dAdt_energy: propext, Classical.choice, Quot.sound
Xmps.FMPS.dAdt_exact: propext, Classical.choice, Quot.sound
Xmps.FMPS.dAdt_extract: propext, Classical.choice, Quot.sound
Xmps.FMPS.dAdt_gauge: propext, Classical.choice, Quot.sound
Xmps.FMPS.dAdt_leftCanonicalise: propext, Classical.choice, Quot.sound
Xmps.FMPS.dAdt_line: propext, Classical.choice, Quot.sound
Xmps.FMPS.dAdt_line_energy: propext, Classical.choice, Quot.sound
Xmps.FMPS.dAdt_norm: propext, Classical.choice, Quot.sound
Xmps.FMPS.dAdt_not_gauge: propext, Classical.choice, Quot.sound
Xmps.FMPS.dAdt_project: propext, Classical.choice, Quot.sound
Xmps.FMPS.dAdt_project_all: propext, Classical.choice, Quot.sound
Xmps.FMPS.dAdt_tdvp: propext, Classical.choice, Quot.sound
Xmps.FMPS.deserializeReal_serializeReal: propext, Classical.choice, Quot.sound
Xmps.FMPS.deserializeReal_standard: propext, Classical.choice, Quot.sound
Xmps.FMPS.deserialize_nonstandard: propext, Classical.choice, Quot.sound
Xmps.FMPS.deserialize_serialize: propext, Classical.choice, Quot.sound
Xmps.FMPS.deserialize_standard: propext, Classical.choice, Quot.sound
Xmps.FMPS.energyStep_direction: propext, Classical.choice, Quot.sound
Xmps.FMPS.energy_diag_partial: propext, Classical.choice, Quot.sound
Xmps.FMPS.energy_leftCanonicalise: propext, Classical.choice, Quot.sound
Xmps.FMPS.energy_rightCanonicalise: propext, Classical.choice, Quot.sound
Xmps.FMPS.energy_wrong: propext, Classical.choice, Quot.sound
Xmps.FMPS.entanglementEntropy_spec: propext, Classical.choice, Quot.sound
Xmps.FMPS.exGap_jac: propext, Classical.choice, Quot.sound
Xmps.FMPS.expandPad_spec: propext, Classical.choice, Quot.sound
Xmps.FMPS.expand_raises: propext, Classical.choice, Quot.sound
Xmps.FMPS.expand_spec: propext, Classical.choice, Quot.sound
Xmps.FMPS.extract_import: propext, Classical.choice, Quot.sound
Xmps.FMPS.extract_isometry: propext, Classical.choice, Quot.sound
Xmps.FMPS.f1_dim: propext, Classical.choice, Quot.sound
Xmps.FMPS.f1_lt: propext, Classical.choice, Quot.sound
Xmps.FMPS.f1_real_partial: propext, Classical.choice, Quot.sound
Xmps.FMPS.f2_extract: propext, Classical.choice, Quot.sound
Xmps.FMPS.f2_normalised: propext, Classical.choice, Quot.sound
Xmps.FMPS.f2_same: propext, Classical.choice, Quot.sound
Xmps.FMPS.f2_spec: propext, Classical.choice, Quot.sound
Xmps.FMPS.fromProductState_state: propext, Classical.choice, Quot.sound
Xmps.FMPS.fullEnvs_leftCanonicalise: propext, Classical.choice, Quot.sound
Xmps.FMPS.fullOverlap_inner: propext, Classical.choice, Quot.sound
Xmps.FMPS.getEnvs_diag_partial: propext, Classical.choice, Quot.sound
Xmps.FMPS.getEnvs_loses: propext, Classical.choice, Quot.sound
Xmps.FMPS.history_partial: propext, Classical.choice, Quot.sound
Xmps.FMPS.import_extract: propext, Classical.choice, Quot.sound
Xmps.FMPS.import_isometry: propext, Classical.choice, Quot.sound
Xmps.FMPS.import_raises: propext, Classical.choice, Quot.sound
Xmps.FMPS.jacFixed_none: propext, Classical.choice, Quot.sound
Xmps.FMPS.jacHalves_real: propext, Classical.choice, Quot.sound
Xmps.FMPS.jac_exact: propext, Classical.choice, Quot.sound
Xmps.FMPS.jac_fixed: propext, Classical.choice, Quot.sound
Xmps.FMPS.jac_gap: propext, Classical.choice, Quot.sound
Xmps.FMPS.jac_hamiltonian: propext, Classical.choice, Quot.sound
Xmps.FMPS.jac_parts_sym: propext, Classical.choice, Quot.sound
Xmps.FMPS.jac_projection: propext, Classical.choice, Quot.sound
Xmps.FMPS.jac_real: propext, Classical.choice, Quot.sound
Xmps.FMPS.jac_run: propext, Classical.choice, Quot.sound
Xmps.FMPS.jac_spectrum: propext, Classical.choice, Quot.sound
Xmps.FMPS.joinReal_serializeReal: propext, Classical.choice, Quot.sound
Xmps.FMPS.kLocal_full: propext, Classical.choice, Quot.sound
Xmps.FMPS.kLocal_nan: propext, Classical.choice, Quot.sound
Xmps.FMPS.kLocal_none: propext, Classical.choice, Quot.sound
Xmps.FMPS.kLocal_product: propext, Classical.choice, Quot.sound
Xmps.FMPS.kLocal_unit: propext, Classical.choice, Quot.sound
Xmps.FMPS.leftCanonicalise_not_preserved: propext, Classical.choice, Quot.sound
Xmps.FMPS.leftCanonicalise_passes: propext, Classical.choice, Quot.sound
Xmps.FMPS.leftCanonicalise_spec: propext, Classical.choice, Quot.sound
Xmps.FMPS.leftCanonicalise_sweep: propext, Classical.choice, Quot.sound
Xmps.FMPS.leftFromState_spec: propext, Classical.choice, Quot.sound
Xmps.FMPS.leftOrthogonalise_spec: propext, Classical.choice, Quot.sound
Xmps.FMPS.leftTransfer_comp: propext, Classical.choice, Quot.sound
Xmps.FMPS.leftTransfer_spec: propext, Classical.choice, Quot.sound
Xmps.FMPS.load_other_name: propext, Classical.choice, Quot.sound
Xmps.FMPS.load_store: propext, Classical.choice, Quot.sound
Xmps.FMPS.load_store_fails: propext, Classical.choice, Quot.sound
Xmps.FMPS.load_store_structured: propext, Classical.choice, Quot.sound
Xmps.FMPS.localOverlap_product: propext, Classical.choice, Quot.sound
Xmps.FMPS.localOverlap_product_right: propext, Classical.choice, Quot.sound
Xmps.FMPS.localOverlap_spec: propext, Classical.choice, Quot.sound
Xmps.FMPS.localOverlap_wrong: propext, Classical.choice, Quot.sound
Xmps.FMPS.lyapunov_sum: propext, Classical.choice, Quot.sound
Xmps.FMPS.matchGaugeTo_spec: propext, Classical.choice, Quot.sound
Xmps.FMPS.mixedCanonicalise_spec: propext, Classical.choice, Quot.sound
Xmps.FMPS.mixedCanonicalise_stale: propext, Classical.choice, Quot.sound
Xmps.FMPS.mixedOrthogonalise_norm_lost: propext, Classical.choice, Quot.sound
Xmps.FMPS.mixedOrthogonalise_spec: propext, Classical.choice, Quot.sound
Xmps.FMPS.mpsPad_spec: propext, Classical.choice, Quot.sound
Xmps.FMPS.mpsPad_stale_D: propext, Classical.choice, Quot.sound
Xmps.FMPS.mulItem_state: propext, Classical.choice, Quot.sound
Xmps.FMPS.mul_state: propext, Classical.choice, Quot.sound
Xmps.FMPS.norm_real_nonneg: propext, Classical.choice, Quot.sound
Xmps.FMPS.overlap_inner: propext, Classical.choice, Quot.sound
Xmps.FMPS.overlap_length: propext, Classical.choice, Quot.sound
Xmps.FMPS.overlap_ne_fullOverlap: propext, Classical.choice, Quot.sound
Xmps.FMPS.overlap_star_fullOverlap_partial: propext, Classical.choice, Quot.sound
Xmps.FMPS.postSelect_data_partial: propext, Classical.choice, Quot.sound
Xmps.FMPS.postSelect_recombine_wrong: propext, Classical.choice, Quot.sound
Xmps.FMPS.postSelect_stale: propext, Classical.choice, Quot.sound
Xmps.FMPS.productStateOverlap_spec: propext, Classical.choice, Quot.sound
Xmps.FMPS.randomWithEnergy_cases: propext, Classical.choice, Quot.sound
Xmps.FMPS.randomWithEnergy_endless: propext, Classical.choice, Quot.sound
Xmps.FMPS.randomWithEnergy_identity: propext, Classical.choice, Quot.sound
Xmps.FMPS.randomWithEnergy_raises: propext, Classical.choice, Quot.sound
Xmps.FMPS.randomWithEnergy_unreachable: propext, Classical.choice, Quot.sound
Xmps.FMPS.random_chain: propext, Classical.choice, Quot.sound
Xmps.FMPS.random_one_site: propext, Classical.choice, Quot.sound
Xmps.FMPS.random_product: propext, Classical.choice, Quot.sound
Xmps.FMPS.random_product_wrong: propext, Classical.choice, Quot.sound
Xmps.FMPS.random_real: propext, Classical.choice, Quot.sound
Xmps.FMPS.random_stale: propext, Classical.choice, Quot.sound
Xmps.FMPS.recombine_amplitudes: propext, Classical.choice, Quot.sound
Xmps.FMPS.rhoFull_spec: propext, Classical.choice, Quot.sound
Xmps.FMPS.rhoProj_exact: propext, Classical.choice, Quot.sound
Xmps.FMPS.rhoProj_none: propext, Classical.choice, Quot.sound
Xmps.FMPS.rhoProj_real_partial: propext, Classical.choice, Quot.sound
Xmps.FMPS.rhoProj_wrong: propext, Classical.choice, Quot.sound
Xmps.FMPS.rhoString_spec: propext, Classical.choice, Quot.sound
Xmps.FMPS.rho_trace: propext, Classical.choice, Quot.sound
Xmps.FMPS.rightCanonicalise_passes: propext, Classical.choice, Quot.sound
Xmps.FMPS.rightCanonicalise_spec: propext, Classical.choice, Quot.sound
Xmps.FMPS.rightCanonicalise_sweep: propext, Classical.choice, Quot.sound
Xmps.FMPS.rightFromState_spec: propext, Classical.choice, Quot.sound
Xmps.FMPS.rightOrthogonalise_spec: propext, Classical.choice, Quot.sound
Xmps.FMPS.rightTransferOne_eq: propext, Classical.choice, Quot.sound
Xmps.FMPS.rightTransfer_real_partial: propext, Classical.choice, Quot.sound
Xmps.FMPS.rightTransfer_shift: propext, Classical.choice, Quot.sound
Xmps.FMPS.rightTransfer_swaps: propext, Classical.choice, Quot.sound
Xmps.FMPS.sub_state_partial: propext, Classical.choice, Quot.sound
Xmps.FMPS.tangentSpaceBasis_eye: propext, Classical.choice, Quot.sound
Xmps.FMPS.tangentSpaceBasis_ortho: propext, Classical.choice, Quot.sound
Xmps.FMPS.tangentSpaceDims_spec: propext, Classical.choice, Quot.sound
Xmps.FMPS.tangentState_raises: propext, Classical.choice, Quot.sound
Xmps.FMPS.tangentState_spec: propext, Classical.choice, Quot.sound
Xmps.FMPS.truediv_state: propext, Classical.choice, Quot.sound
Xmps.FMPS.tsInt_symplectic: propext, Classical.choice, Quot.sound
Xmps.FPEPS.R_centre: propext, Classical.choice, Quot.sound
Xmps.FPEPS.R_centre_outside: propext, Classical.choice, Quot.sound
Xmps.FPEPS.R_reflection: propext, Classical.choice, Quot.sound
Xmps.FPEPS.T_reflection: propext, Classical.choice, Quot.sound
Xmps.FPEPS.U_centre: propext, Classical.choice, Quot.sound
Xmps.FPEPS.U_reflection: propext, Classical.choice, Quot.sound
Xmps.FPEPS.add_eq_partial: propext, Classical.choice, Quot.sound
Xmps.FPEPS.add_not_peps: propext, Classical.choice, Quot.sound
Xmps.FPEPS.add_raises: propext, Classical.choice, Quot.sound
Xmps.FPEPS.apply_eq: propext, Classical.choice, Quot.sound
Xmps.FPEPS.colContract_ok: propext, Classical.choice, Quot.sound
Xmps.FPEPS.contract_ok: propext, Classical.choice, Quot.sound
Xmps.FPEPS.createStructure_eq: propext, Classical.choice, Quot.sound
Xmps.FPEPS.eq_common: propext, Classical.choice, Quot.sound
Xmps.FPEPS.eq_rows: propext, Classical.choice, Quot.sound
Xmps.FPEPS.eq_same_size: propext, Classical.choice, Quot.sound
Xmps.FPEPS.expK_eq: propext, Classical.choice, Quot.sound
Xmps.FPEPS.expK_full_width: propext, Classical.choice, Quot.sound
Xmps.FPEPS.expK_not_reading: propext, Classical.choice, Quot.sound
Xmps.FPEPS.expK_reading_partial: propext, Classical.choice, Quot.sound
Xmps.FPEPS.expval_eq: propext, Classical.choice, Quot.sound
Xmps.FPEPS.expval_red: propext, Classical.choice, Quot.sound
Xmps.FPEPS.factors_closest: propext, Classical.choice, Quot.sound
Xmps.FPEPS.fixNeighbours_fits: propext, Classical.choice, Quot.sound
Xmps.FPEPS.fixNeighbours_same: propext, Classical.choice, Quot.sound
Xmps.FPEPS.fixNeighbours_spec: propext, Classical.choice, Quot.sound
Xmps.FPEPS.fixNeighbours_tall: propext, Classical.choice, Quot.sound
Xmps.FPEPS.fixNeighbours_wide: propext, Classical.choice, Quot.sound
Xmps.FPEPS.fromMpsLx_drops: propext, Classical.choice, Quot.sound
Xmps.FPEPS.fromMpsSq_eq: propext, Classical.choice, Quot.sound
Xmps.FPEPS.fromMps_column: propext, Classical.choice, Quot.sound
Xmps.FPEPS.fromMps_eq: propext, Classical.choice, Quot.sound
Xmps.FPEPS.fromMps_recombine: propext, Classical.choice, Quot.sound
Xmps.FPEPS.fullOverlap_eq: propext, Classical.choice, Quot.sound
Xmps.FPEPS.fullOverlap_overlap: propext, Classical.choice, Quot.sound
Xmps.FPEPS.isoEAt_eq: propext, Classical.choice, Quot.sound
Xmps.FPEPS.isoE_eq_expval: propext, Classical.choice, Quot.sound
Xmps.FPEPS.isoE_off_centre: propext, Classical.choice, Quot.sound
Xmps.FPEPS.iso_braket: propext, Classical.choice, Quot.sound
Xmps.FPEPS.iso_norm: propext, Classical.choice, Quot.sound
Xmps.FPEPS.isometrise_assert: propext, Classical.choice, Quot.sound
Xmps.FPEPS.isometrise_constructed: propext, Classical.choice, Quot.sound
Xmps.FPEPS.isometrise_isometric: propext, Classical.choice, Quot.sound
Xmps.FPEPS.isometrise_rect: propext, Classical.choice, Quot.sound
Xmps.FPEPS.mosesRight_error: propext, Classical.choice, Quot.sound
Xmps.FPEPS.mosesTo_error: propext, Classical.choice, Quot.sound
Xmps.FPEPS.norm_eq: propext, Classical.choice, Quot.sound
Xmps.FPEPS.normalise_norm: propext, Classical.choice, Quot.sound
Xmps.FPEPS.normalise_product: propext, Classical.choice, Quot.sound
Xmps.FPEPS.overlap_conj: propext, Classical.choice, Quot.sound
Xmps.FPEPS.overlap_eq: propext, Classical.choice, Quot.sound
Xmps.FPEPS.overlap_single_column: propext, Classical.choice, Quot.sound
Xmps.FPEPS.pepsAmp_tR: propext, Classical.choice, Quot.sound
Xmps.FPEPS.pepsAmp_tT: propext, Classical.choice, Quot.sound
Xmps.FPEPS.pepsAmp_tU: propext, Classical.choice, Quot.sound
Xmps.FPEPS.random_isometrise: propext, Classical.choice, Quot.sound
Xmps.FPEPS.recombineSnake_eq_partial: propext, Classical.choice, Quot.sound
Xmps.FPEPS.recombineSnake_twist: propext, Classical.choice, Quot.sound
Xmps.FPEPS.recombineSnake_wrong: propext, Classical.choice, Quot.sound
Xmps.FPEPS.recombine_eq: propext, Classical.choice, Quot.sound
Xmps.FPEPS.rhoProj_ok: propext, Classical.choice, Quot.sound
Xmps.FPEPS.rhoProj_wrong: propext, Classical.choice, Quot.sound
Xmps.FPEPS.rho_eq: propext, Classical.choice, Quot.sound
Xmps.FPEPS.rho_expval: propext, Classical.choice, Quot.sound
Xmps.FPEPS.rowContract_ok: propext, Classical.choice, Quot.sound
Xmps.FPEPS.siteRed_product: propext, Classical.choice, Quot.sound
Xmps.Gates.CRy_group: propext, Classical.choice, Quot.sound
Xmps.Gates.CZ_CNOT_involutions: propext, Classical.choice, Quot.sound
Xmps.Gates.CZ_swap: propext, Classical.choice, Quot.sound
Xmps.Gates.controlled: propext, Classical.choice, Quot.sound
Xmps.Gates.deembed_embed: propext, Classical.choice, Quot.sound
Xmps.Gates.embed_unitary: propext, Classical.choice, Quot.sound
Xmps.Gates.isSwapSymmetric_iff: propext, Classical.choice, Quot.sound
Xmps.Gates.nullRow_exists: propext, Classical.choice, Quot.sound
Xmps.Gates.swapAntisymmetrise_wrong: propext, Classical.choice, Quot.sound
Xmps.Gates.swapSymmetrise_eq_iff: propext, Classical.choice, Quot.sound
Xmps.Gates.swapSymmetrise_idem: propext, Classical.choice, Quot.sound
Xmps.Gates.swapSymmetrise_symm: propext, Classical.choice, Quot.sound
Xmps.Gates.swap_kron: propext, Classical.choice, Quot.sound
Xmps.Gates.swap_mul_swap: propext, Classical.choice, Quot.sound
Xmps.Ham.init_field: propext, Classical.choice, Quot.sound
Xmps.Ham.toFull_matrices: propext, Classical.choice, Quot.sound
Xmps.Ham.toFull_partial: propext, Classical.choice, Quot.sound
Xmps.Ham.toFull_small: propext, Classical.choice, Quot.sound
Xmps.Ham.toFull_strings: propext, Classical.choice, Quot.sound
Xmps.Ham.toFull_two: propext, Classical.choice, Quot.sound
Xmps.Ham.toFull_two_wrong: propext, Classical.choice, Quot.sound
Xmps.Ham.toMpo_eq_toFull: propext, Classical.choice, Quot.sound
Xmps.Ham.toMpo_raises: propext, Classical.choice, Quot.sound
Xmps.Ham.toMpo_spec: propext, Classical.choice, Quot.sound
Xmps.IMPS.E_left: propext, Classical.choice, Quot.sound
Xmps.IMPS.E_mixed: propext, Classical.choice, Quot.sound
Xmps.IMPS.E_right: propext, Classical.choice, Quot.sound
Xmps.IMPS.E_transposed: propext, Classical.choice, Quot.sound
Xmps.IMPS.E_vidal: propext, Classical.choice, Quot.sound
Xmps.IMPS.Lh_not_sum: propext, Classical.choice, Quot.sound
Xmps.IMPS.Lh_ok: propext, Classical.choice, Quot.sound
Xmps.IMPS.Lh_series_partial: propext, Classical.choice, Quot.sound
Xmps.IMPS.Rh_not_sum: propext, Classical.choice, Quot.sound
Xmps.IMPS.Rh_ok: propext, Classical.choice, Quot.sound
Xmps.IMPS.Rh_series_partial: propext, Classical.choice, Quot.sound
Xmps.IMPS.canonicalise_left: propext, Classical.choice, Quot.sound
Xmps.IMPS.canonicalise_mixed: propext, Classical.choice, Quot.sound
Xmps.IMPS.canonicalise_right: propext, Classical.choice, Quot.sound
Xmps.IMPS.dAdt_not_tdvp: propext, Classical.choice, Quot.sound
Xmps.IMPS.dAdt_tdvp_partial: propext, Classical.choice, Quot.sound
Xmps.IMPS.dAdt_window_partial: propext, Classical.choice, Quot.sound
Xmps.IMPS.eigs_ok: propext, Classical.choice, Quot.sound
Xmps.IMPS.energy_eq: propext, Classical.choice, Quot.sound
Xmps.IMPS.energy_ok_partial: propext, Classical.choice, Quot.sound
Xmps.IMPS.energy_wrong: propext, Classical.choice, Quot.sound
Xmps.IMPS.findGround_progress: propext, Classical.choice, Quot.sound
Xmps.IMPS.findGround_size: propext, Classical.choice, Quot.sound
Xmps.IMPS.findGround_small: propext, Classical.choice, Quot.sound
Xmps.IMPS.findGround_spec: propext, Classical.choice, Quot.sound
Xmps.IMPS.findGround_zero: propext, Classical.choice, Quot.sound
Xmps.IMPS.fixLaw_exists: propext, Classical.choice, Quot.sound
Xmps.IMPS.infExpect_identity: propext, Classical.choice, Quot.sound
Xmps.IMPS.infExpect_scale: propext, Classical.choice, Quot.sound
Xmps.IMPS.leftCanon_round: propext, Classical.choice, Quot.sound
Xmps.IMPS.leftFixedPoint_nan: propext, Classical.choice, Quot.sound
Xmps.IMPS.lmixed_fixed: propext, Classical.choice, Quot.sound
Xmps.IMPS.lmixed_spec: propext, Classical.choice, Quot.sound
Xmps.IMPS.mixed_not_normalised: propext, Classical.choice, Quot.sound
Xmps.IMPS.mixed_spec: propext, Classical.choice, Quot.sound
Xmps.IMPS.overlap_spec: propext, Classical.choice, Quot.sound
Xmps.IMPS.rmixed_spec: propext, Classical.choice, Quot.sound
Xmps.IMPS.step_norm: propext, Classical.choice, Quot.sound
Xmps.IMPS.tangent_energy: propext, Classical.choice, Quot.sound
Xmps.ITdvp.euler_norm: propext, Classical.choice, Quot.sound
Xmps.ITdvp.eulerint_progress: propext, Classical.choice, Quot.sound
Xmps.ITdvp.eulerint_spec: propext, Classical.choice, Quot.sound
Xmps.ITdvp.integrate_short: propext, Classical.choice, Quot.sound
Xmps.ITdvp.integrate_spec: propext, Classical.choice, Quot.sound
Xmps.ITdvp.integrate_times: propext, Classical.choice, Quot.sound
Xmps.ITdvp.loschmidts_spec: propext, Classical.choice, Quot.sound
Xmps.ITdvp.rk4_step: propext, Classical.choice, Quot.sound
Xmps.ITdvp.rk4int_spec: propext, Classical.choice, Quot.sound
Xmps.IvMPS.E_not_expectation: propext, Classical.choice, Quot.sound
Xmps.IvMPS.E_symmetric_partial: propext, Classical.choice, Quot.sound
Xmps.IvMPS.E_transpose: propext, Classical.choice, Quot.sound
Xmps.IvMPS.canonicalise_ok: propext, Classical.choice, Quot.sound
Xmps.IvMPS.canonicalise_spec: propext, Classical.choice, Quot.sound
Xmps.IvMPS.randomL_spec: propext, Classical.choice, Quot.sound
Xmps.IvMPS.random_spec: propext, Classical.choice, Quot.sound
Xmps.IvMPS.transferMatrix_period: propext, Classical.choice, Quot.sound
Xmps.IvMPS.transferMatrix_spec: propext, Classical.choice, Quot.sound
Xmps.LeftLoop.ltInner_eq: propext, Classical.choice, Quot.sound
Xmps.LeftLoop.lt_eq: propext, Classical.choice, Quot.sound
Xmps.LeftLoop.lt_eq_inner: propext, Classical.choice, Quot.sound
Xmps.LeftLoop.lt_spec: propext, Classical.choice, Quot.sound
Xmps.Ncon.ncon_check_exact: propext, Classical.choice, Quot.sound
Xmps.Ncon.ncon_check_irrelevant: propext, Classical.choice, Quot.sound
Xmps.Ncon.ncon_einsum: propext, Classical.choice, Quot.sound
Xmps.Ncon.ncon_einsum_default: propext, Classical.choice, Quot.sound
Xmps.Ncon.ncon_order_independent: propext, Classical.choice, Quot.sound
Xmps.Ncon.ncon_order_unchanged_iff_partial: propext, Classical.choice, Quot.sound
Xmps.Ncon.ncon_repeat_raises: propext, Classical.choice, Quot.sound
Xmps.Ncon.ncon_single: propext, Classical.choice, Quot.sound
Xmps.ProjHam.energy_mixed: propext, Classical.choice, Quot.sound
Xmps.ProjHam.energy_mixed_partial: propext, Classical.choice, Quot.sound
Xmps.ProjHam.heis_sum: propext, Classical.choice, Quot.sound
Xmps.ProjHam.heis_wrong: propext, Classical.choice, Quot.sound
Xmps.ProjHam.iHeis_sum: propext, Classical.choice, Quot.sound
Xmps.ProjHam.iIsin_sum: propext, Classical.choice, Quot.sound
Xmps.ProjHam.iOptimise_product: propext, Classical.choice, Quot.sound
Xmps.ProjHam.iOptimise_spec: propext, Classical.choice, Quot.sound
Xmps.ProjHam.iOptimise_wrong: propext, Classical.choice, Quot.sound
Xmps.ProjHam.isin_one: propext, Classical.choice, Quot.sound
Xmps.ProjHam.isin_sum: propext, Classical.choice, Quot.sound
Xmps.ProjHam.isin_three: propext, Classical.choice, Quot.sound
Xmps.ProjHam.isin_two: propext, Classical.choice, Quot.sound
Xmps.ProjHam.isin_wrong: propext, Classical.choice, Quot.sound
Xmps.ProjHam.optStep_up: propext, Classical.choice, Quot.sound
Xmps.ProjHam.optimise_identity: propext, Classical.choice, Quot.sound
Xmps.ProjHam.optimise_other: propext, Classical.choice, Quot.sound
Xmps.ProjHam.optimise_spec: propext, Classical.choice, Quot.sound
Xmps.ProjHam.optimise_value: propext, Classical.choice, Quot.sound
Xmps.ProjMpo.anisotropicHeisenberg_one: propext, Classical.choice, Quot.sound
Xmps.ProjMpo.anisotropicHeisenberg_spec: propext, Classical.choice, Quot.sound
Xmps.ProjMpo.asmatrix_last: propext, Classical.choice, Quot.sound
Xmps.ProjMpo.asmatrix_spec: propext, Classical.choice, Quot.sound
Xmps.ProjMpo.asmatrix_wrong: propext, Classical.choice, Quot.sound
Xmps.ProjMpo.getEnvs_ok: propext, Classical.choice, Quot.sound
Xmps.ProjMpo.mv_first: propext, Classical.choice, Quot.sound
Xmps.ProjMpo.mv_spec: propext, Classical.choice, Quot.sound
Xmps.ProjMpo.mv_wrong: propext, Classical.choice, Quot.sound
Xmps.Qmb.anisotropicHeisenbergFull_spec: propext, Classical.choice, Quot.sound
Xmps.Qmb.localHeisenbergs_one: propext, Classical.choice, Quot.sound
Xmps.Qmb.localHeisenbergs_spec: propext, Classical.choice, Quot.sound
Xmps.Qmb.localIsing_spec: propext, Classical.choice, Quot.sound
Xmps.Qmb.localIsings_spec: propext, Classical.choice, Quot.sound
Xmps.Qmb.localXX_spec: propext, Classical.choice, Quot.sound
Xmps.Qmb.localXX_wrong: propext, Classical.choice, Quot.sound
Xmps.Qmb.pairTerm_ok: propext, Classical.choice, Quot.sound
Xmps.Qmb.sNBody_high: propext, Classical.choice, Quot.sound
Xmps.Qmb.sNBody_low: propext, Classical.choice, Quot.sound
Xmps.Qmb.sNBody_spec: propext, Classical.choice, Quot.sound
Xmps.Spec.FixedPoints.injective: propext, Classical.choice, Quot.sound
Xmps.Spec.SchmidtAt.perm: propext, Classical.choice, Quot.sound
Xmps.Spec.SchmidtAt.sum_eq: propext, Classical.choice, Quot.sound
Xmps.Spec.SchmidtAt.sum_norm: propext, Classical.choice, Quot.sound
Xmps.Spin.CR_spins: propext, Classical.choice, Quot.sound
Xmps.Spin.CR_wrong: propext, Classical.choice, Quot.sound
Xmps.Spin.SU2N_spec: propext, Classical.choice, Quot.sound
Xmps.Spin.SU4_special: propext, Classical.choice, Quot.sound
Xmps.Spin.SU8_special: propext, Classical.choice, Quot.sound
Xmps.Spin.SU_insu2N: propext, Classical.choice, Quot.sound
Xmps.Spin.SU_special: propext, Classical.choice, Quot.sound
Xmps.Spin.SU_surjective: propext, Classical.choice, Quot.sound
Xmps.Spin.U4_special: propext, Classical.choice, Quot.sound
Xmps.Spin.U4s_special: propext, Classical.choice, Quot.sound
Xmps.Spin.U4s_surjective: propext, Classical.choice, Quot.sound
Xmps.Spin.antiferro_pauli: propext, Classical.choice, Quot.sound
Xmps.Spin.checkCR_iff: propext, Classical.choice, Quot.sound
Xmps.Spin.checkCR_of_rel: propext, Classical.choice, Quot.sound
Xmps.Spin.equalUpToPhase_iff_partial: propext, Classical.choice, Quot.sound
Xmps.Spin.equalUpToPhase_misses: propext, Classical.choice, Quot.sound
Xmps.Spin.equalUpToPhase_sound: propext, Classical.choice, Quot.sound
Xmps.Spin.expGen_length: propext, Classical.choice, Quot.sound
Xmps.Spin.expGen_special: propext, Classical.choice, Quot.sound
Xmps.Spin.extractv_spec: propext, Classical.choice, Quot.sound
Xmps.Spin.ferro_not_pauli: propext, Classical.choice, Quot.sound
Xmps.Spin.ferro_partial: propext, Classical.choice, Quot.sound
Xmps.Spin.insu2N_length: propext, Classical.choice, Quot.sound
Xmps.Spin.insu2N_mid_raises: propext, Classical.choice, Quot.sound
Xmps.Spin.insu2N_spec: propext, Classical.choice, Quot.sound
Xmps.Spin.ladders_eq: propext, Classical.choice, Quot.sound
Xmps.Spin.ladders_order: propext, Classical.choice, Quot.sound
Xmps.Spin.lambdas_basis: propext, Classical.choice, Quot.sound
Xmps.Spin.lambdas_hermitian_traceless: propext, Classical.choice, Quot.sound
Xmps.Spin.lambdas_norm: propext, Classical.choice, Quot.sound
Xmps.Spin.lambdas_orthogonal: propext, Classical.choice, Quot.sound
Xmps.Spin.leviCivita_perm: propext, Classical.choice, Quot.sound
Xmps.Spin.leviCivita_repeat: propext, Classical.choice, Quot.sound
Xmps.Spin.leviCivita_swap: propext, Classical.choice, Quot.sound
Xmps.Spin.logLaw_exists: propext, Classical.choice, Quot.sound
Xmps.Spin.nBody_commute: propext, Classical.choice, Quot.sound
Xmps.Spin.nBody_d: propext, Classical.choice, Quot.sound
Xmps.Spin.nBody_high: propext, Quot.sound
Xmps.Spin.nBody_low: propext, Classical.choice, Quot.sound
Xmps.Spin.nBody_mul: propext, Classical.choice, Quot.sound
Xmps.Spin.nBody_spec: propext, Classical.choice, Quot.sound
Xmps.Spin.nsphere_norm: propext, Classical.choice, Quot.sound
Xmps.Spin.pCR_paulis: propext, Classical.choice, Quot.sound
Xmps.Spin.pCR_spins: propext, Classical.choice, Quot.sound
Xmps.Spin.paulis_eq: propext, Classical.choice, Quot.sound
Xmps.Spin.slambdas_basis: propext, Classical.choice, Quot.sound
Xmps.Spin.slambdas_closed: propext, Classical.choice, Quot.sound
Xmps.Spin.slambdas_hermitian_traceless: propext, Classical.choice, Quot.sound
Xmps.Spin.slambdas_swap: propext, Classical.choice, Quot.sound
Xmps.Spin.spins_casimir: propext, Classical.choice, Quot.sound
Xmps.Spin.spins_comm: propext, Classical.choice, Quot.sound
Xmps.Spin.spins_hermitian: propext, Classical.choice, Quot.sound
Xmps.Spin.su_complete: propext, Classical.choice, Quot.sound
Xmps.Spin.su_components: propext, Classical.choice, Quot.sound
Xmps.Spin.su_hermitian_traceless: propext, Classical.choice, Quot.sound
Xmps.Spin.su_length: propext, Classical.choice, Quot.sound
Xmps.Spin.su_norm: propext, Classical.choice, Quot.sound
Xmps.Spin.su_orthogonal: propext, Classical.choice, Quot.sound
Xmps.Spin.toNewV_spec: propext, Classical.choice, Quot.sound
Xmps.SvdRobust.svd_default: propext, Classical.choice, Quot.sound
Xmps.SvdRobust.svd_gesvd: propext, Classical.choice, Quot.sound
Xmps.SvdRobust.svd_invalid: propext, Classical.choice, Quot.sound
Xmps.SvdRobust.svd_law: propext, Classical.choice, Quot.sound
Xmps.SvdRobust.svd_law_iff: propext, Classical.choice, Quot.sound
Xmps.SvdRobust.svd_linAlgError: propext, Classical.choice, Quot.sound
Xmps.TFD.E_double: propext, Classical.choice, Quot.sound
Xmps.TFD.E_spec: propext, Classical.choice, Quot.sound
Xmps.TFD.Es_spec: propext, Classical.choice, Quot.sound
Xmps.TFD.dAdt_eq: propext, Classical.choice, Quot.sound
Xmps.TFD.dAdt_wrong: propext, Classical.choice, Quot.sound
Xmps.TFD.fs_raises: propext, Classical.choice, Quot.sound
Xmps.TFD.fs_spec: propext, Classical.choice, Quot.sound
Xmps.TFD.random_mixed: propext, Classical.choice, Quot.sound
Xmps.TFD.random_mixed_one: propext, Classical.choice, Quot.sound
Xmps.TFD.random_one_site: propext, Classical.choice, Quot.sound
Xmps.TFD.random_pure: propext, Classical.choice, Quot.sound
Xmps.TFD.random_pure_wrong: propext, Classical.choice, Quot.sound
Xmps.TFD.splitVL_raises: propext, Classical.choice, Quot.sound
Xmps.TFD.splitVL_spec: propext, Classical.choice, Quot.sound
Xmps.TFD.symmAsymm_ok: propext, Classical.choice, Quot.sound
Xmps.TFD.symmAsymm_one: propext, Classical.choice, Quot.sound
Xmps.TFD.symmAsymm_projectors: propext, Classical.choice, Quot.sound
Xmps.TFD.symmAsymm_wrong: propext, Classical.choice, Quot.sound
Xmps.TMap.asmatrix_ok: propext, Classical.choice, Quot.sound
Xmps.TMap.leftFixedPoint_ok: propext, Classical.choice, Quot.sound
Xmps.TMap.mv_spec: propext, Classical.choice, Quot.sound
Xmps.TMap.mvr_spec: propext, Classical.choice, Quot.sound
Xmps.Tdvp.bell_fails: propext, Classical.choice, Quot.sound
Xmps.Tdvp.edEnergy_eq_energy: propext, Classical.choice, Quot.sound
Xmps.Tdvp.edOtoc_nonneg: propext, Classical.choice, Quot.sound
Xmps.Tdvp.edOtoc_refuses: propext, Classical.choice, Quot.sound
Xmps.Tdvp.edOtoc_spec: propext, Classical.choice, Quot.sound
Xmps.Tdvp.edint_conserves: propext, Classical.choice, Quot.sound
Xmps.Tdvp.edint_full: propext, Classical.choice, Quot.sound
Xmps.Tdvp.edint_noterms: propext, Classical.choice, Quot.sound
Xmps.Tdvp.edint_short: propext, Classical.choice, Quot.sound
Xmps.Tdvp.edint_terms: propext, Classical.choice, Quot.sound
Xmps.Tdvp.edint_times: propext, Classical.choice, Quot.sound
Xmps.Tdvp.edint_uneven: propext, Classical.choice, Quot.sound
Xmps.Tdvp.entropy_chain: propext, Classical.choice, Quot.sound
Xmps.Tdvp.euler_scheme: propext, Classical.choice, Quot.sound
Xmps.Tdvp.evolve_schroedinger: propext, Classical.choice, Quot.sound
Xmps.Tdvp.evolve_zero: propext, Classical.choice, Quot.sound
Xmps.Tdvp.loschmidt_bounds: propext, Classical.choice, Quot.sound
Xmps.Tdvp.loschmidt_ed: propext, Classical.choice, Quot.sound
Xmps.Tdvp.loschmidt_expand_fails: propext, Classical.choice, Quot.sound
Xmps.Tdvp.loschmidt_hist: propext, Classical.choice, Quot.sound
Xmps.Tdvp.lyapunovMax_spec: propext, Classical.choice, Quot.sound
Xmps.Tdvp.lyapunovMax_total: propext, Classical.choice, Quot.sound
Xmps.Tdvp.lyapunov_ragged: propext, Classical.choice, Quot.sound
Xmps.Tdvp.lyapunov_spec: propext, Classical.choice, Quot.sound
Xmps.Tdvp.lyapunov_total: propext, Classical.choice, Quot.sound
Xmps.Tdvp.matrix_eq_toFull: propext, Classical.choice, Quot.sound
Xmps.Tdvp.mpsEnergies_hist: propext, Classical.choice, Quot.sound
Xmps.Tdvp.mpsEvs_hist: propext, Classical.choice, Quot.sound
Xmps.Tdvp.mpsListEd_length: propext, Classical.choice, Quot.sound
Xmps.Tdvp.mpsList_clear_fails: propext, Classical.choice, Quot.sound
Xmps.Tdvp.mpsList_run: propext, Classical.choice, Quot.sound
Xmps.Tdvp.mpsList_run_clear: propext, Classical.choice, Quot.sound
Xmps.Tdvp.mpsOTOC_name: propext, Classical.choice, Quot.sound
Xmps.Tdvp.mpsOTOC_ok: propext, Classical.choice, Quot.sound
Xmps.Tdvp.mpsOTOC_steps: propext, Classical.choice, Quot.sound
Xmps.Tdvp.mpsOTOC_wrong: propext, Classical.choice, Quot.sound
Xmps.Tdvp.otocEntry_range: propext, Classical.choice, Quot.sound
Xmps.Tdvp.renyi_hist: propext, Classical.choice, Quot.sound
Xmps.Tdvp.renyi_one: propext, Classical.choice, Quot.sound
Xmps.Tdvp.rk4_linear: propext, Classical.choice, Quot.sound
Xmps.Tdvp.rk4_order: propext, Classical.choice, Quot.sound
Xmps.Tdvp.rk4_scalar: propext, Classical.choice, Quot.sound
Xmps.Tdvp.rk4_scheme: propext, Classical.choice, Quot.sound
Xmps.Tdvp.rk4i_scalar: propext, Classical.choice, Quot.sound
Xmps.Tdvp.rk4i_scheme: propext, Classical.choice, Quot.sound
Xmps.Tdvp.rk4i_wrong: propext, Classical.choice, Quot.sound
Xmps.Tdvp.schmidts_ed: propext, Classical.choice, Quot.sound
Xmps.Tdvp.schmidts_hist: propext, Classical.choice, Quot.sound
Xmps.Tdvp.stopDir_fresh: propext
Xmps.Tdvp.stopDir_next: propext, Classical.choice, Quot.sound
Xmps.Tdvp.stops_eleven: propext, Classical.choice, Quot.sound
Xmps.Tdvp.stops_other: propext, Classical.choice, Quot.sound
Xmps.Tdvp.stops_ten: propext, Classical.choice, Quot.sound
Xmps.Tdvp.tsInt_spec: propext, Classical.choice, Quot.sound
Xmps.Tdvp.vonNeumann_ed: propext, Classical.choice, Quot.sound
Xmps.Tdvp.vonNeumann_ed_strict_fails: propext, Classical.choice, Quot.sound
Xmps.Tdvp.vonNeumann_hist: propext, Classical.choice, Quot.sound
Xmps.Tdvp.vonNeumann_strict_fails: propext, Classical.choice, Quot.sound
Xmps.Tdvp.vonNeumann_strict_zero: propext, Classical.choice, Quot.sound
Xmps.TensorMisc.directSum_square: propext, Classical.choice, Quot.sound
Xmps.TensorMisc.directSum_wrong: propext, Classical.choice, Quot.sound
Xmps.TensorMisc.getNullSpace_spec: propext, Classical.choice, Quot.sound
Xmps.TensorMisc.haarUnitary_unitary: propext, Classical.choice, Quot.sound
Xmps.TensorMisc.trSvd_spec: propext, Classical.choice, Quot.sound
Xmps.TransferMatrix.asmatrix_ok: propext, Classical.choice, Quot.sound
Xmps.TransferMatrix.mv_spec: propext, Classical.choice, Quot.sound
Xmps.TransferMatrix.mvr_not_adjoint: propext, Classical.choice, Quot.sound
Xmps.TransferMatrix.mvr_partial: propext, Classical.choice, Quot.sound
Xmps.TransferMatrix.mvr_transposed: propext, Classical.choice, Quot.sound
Xmps.VFMPS.roundTrip: propext, Classical.choice, Quot.sound
Xmps.alias_changes: propext, Classical.choice, Quot.sound
Xmps.applyTwoSite_refines: propext, Classical.choice, Quot.sound
Xmps.apply_new: propext, Classical.choice, Quot.sound
Xmps.call_frame: propext, Classical.choice, Quot.sound
Xmps.changebasis_perm: propext, Classical.choice, Quot.sound
Xmps.changebasis_sympmat: propext, Classical.choice, Quot.sound
Xmps.cholLaw_exists: propext, Classical.choice, Quot.sound
Xmps.copies_independent: propext, Classical.choice, Quot.sound
Xmps.deembed_embed: propext, Classical.choice, Quot.sound
Xmps.dynamicalExpand_zz: propext, Classical.choice, Quot.sound
Xmps.embed_spec: propext, Classical.choice, Quot.sound
Xmps.exFlip_exact: propext, Classical.choice, Quot.sound
Xmps.exGap_wrong: propext, Classical.choice, Quot.sound
Xmps.exQ_closed: propext, Classical.choice, Quot.sound
Xmps.exQ_stale: propext, Classical.choice, Quot.sound
Xmps.exScaled_wrong: propext, Classical.choice, Quot.sound
Xmps.exTwist_wrong: propext, Classical.choice, Quot.sound
Xmps.factors_even: propext, Classical.choice, Quot.sound
Xmps.factors_not_recovered: propext, Classical.choice, Quot.sound
Xmps.factors_square: propext, Classical.choice, Quot.sound
Xmps.flipF1_flipF1: propext, Classical.choice, Quot.sound
Xmps.flipF2_flipF2: propext, Classical.choice, Quot.sound
Xmps.fromFMPS_amplitude: propext, Classical.choice, Quot.sound
Xmps.fromFMPS_symmetric: propext, Classical.choice, Quot.sound
Xmps.groupLegs_entries: propext, Classical.choice, Quot.sound
Xmps.grow_eigenstate: propext, Classical.choice, Quot.sound
Xmps.grow_phase: propext, Classical.choice, Quot.sound
Xmps.grow_zz: propext, Classical.choice, Quot.sound
Xmps.hasTrace1_spec: propext, Classical.choice, Quot.sound
Xmps.history_frame: propext, Classical.choice, Quot.sound
Xmps.inverseTranspose_spec: propext, Classical.choice, Quot.sound
Xmps.isFullRank_spec: propext, Classical.choice, Quot.sound
Xmps.isLeftCanonical_iff: propext, Classical.choice, Quot.sound
Xmps.isLeftCanonical_spec: propext, Classical.choice, Quot.sound
Xmps.isLeftEnvCanonical_last: propext, Classical.choice, Quot.sound
Xmps.isLeftEnvCanonical_partial: propext, Classical.choice, Quot.sound
Xmps.isRightCanonical_iff: propext, Classical.choice, Quot.sound
Xmps.isRightCanonical_spec: propext, Classical.choice, Quot.sound
Xmps.isRightEnvCanonical_last: propext, Classical.choice, Quot.sound
Xmps.isRightEnvCanonical_partial: propext, Classical.choice, Quot.sound
Xmps.kron_loc: propext, Classical.choice, Quot.sound
Xmps.leadingLaw_exists: propext, Classical.choice, Quot.sound
Xmps.nullLaw_exists: propext, Classical.choice, Quot.sound
Xmps.orthogonalise_refines: propext, Classical.choice, Quot.sound
Xmps.partialTrace_entries: propext, Classical.choice, Quot.sound
Xmps.polarLaw_exists: propext, Classical.choice, Quot.sound
Xmps.projectionError_exact: propext, Classical.choice, Quot.sound
Xmps.projectionError_ok_partial: propext, Classical.choice, Quot.sound
Xmps.projectionError_pair: propext, Classical.choice, Quot.sound
Xmps.projectionError_raises: propext, Classical.choice, Quot.sound
Xmps.projector_ok: propext, Classical.choice, Quot.sound
Xmps.qrLaw_exists: propext, Classical.choice, Quot.sound
Xmps.reachable_separate: propext, Classical.choice, Quot.sound
Xmps.rhoA_entries: propext, Classical.choice, Quot.sound
Xmps.rhoA_eq_partialTrace: propext, Classical.choice, Quot.sound
Xmps.rhoA_hermitian: propext, Classical.choice, Quot.sound
Xmps.rhoA_nil: propext, Classical.choice, Quot.sound
Xmps.rhoA_out_of_range: propext, Classical.choice, Quot.sound
Xmps.rhoA_trace: propext, Classical.choice, Quot.sound
Xmps.rqLaw_exists: propext, Classical.choice, Quot.sound
Xmps.rqUpper_exists: propext, Classical.choice, Quot.sound
Xmps.schmidt_rank_bond: propext, Classical.choice, Quot.sound
Xmps.shannon_eq_zero: propext, Classical.choice, Quot.sound
Xmps.shannon_le_log: propext, Classical.choice, Quot.sound
Xmps.shouldExpand_iff: propext, Classical.choice, Quot.sound
Xmps.simpleRight_of_left: propext, Classical.choice, Quot.sound
Xmps.splitUp3_kron: propext, Classical.choice, Quot.sound
Xmps.splitUp3_wrong: propext, Classical.choice, Quot.sound
Xmps.splitUp_kron: propext, Classical.choice, Quot.sound
Xmps.splitUp_rectangular_raises: propext
Xmps.symmetrise_symmetric: propext, Classical.choice, Quot.sound
Xmps.symmetry_exchanges: propext, Classical.choice, Quot.sound
Xmps.symmetry_involution: propext, Classical.choice, Quot.sound
Xmps.sympmat_orthogonal: propext, Classical.choice, Quot.sound
Xmps.sympmat_sq: propext, Classical.choice, Quot.sound
Xmps.sympmat_transpose: propext, Classical.choice, Quot.sound
Xmps.trajExpand_own: propext, Classical.choice, Quot.sound
Xmps.ungroupLegs_rank: propext, Quot.sound
Xmps.ungroup_group: propext, Classical.choice, Quot.sound
Xmps.unitaryExtension_spec: propext, Classical.choice, Quot.sound
Xmps.uqr_degenerate: propext, Classical.choice, Quot.sound
Xmps.uqr_fact: propext, Classical.choice, Quot.sound
Xmps.uqr_unique: propext, Classical.choice, Quot.sound
Xmps.urq_fact: propext, Classical.choice, Quot.sound
Xmps.weights_sum: propext, Classical.choice, Quot.sound