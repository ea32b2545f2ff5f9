# Formal model of xmps

Subject: `fergusbarratt/xmps` (Python), read as text in `/repo`.  Nothing was run.
Model and proofs: Lean 4.33.0 + Mathlib, Lake project in `/verif/lean`.
This file is written by `tools/design.py` from `tools/design_head.md`, `tools/how.json`, the manifest and the output of `#print axioms`.

## Modelling decisions

* **Numbers.** Array entries are elements of a commutative (star) ring; where the code takes real
  parts, square roots or norms the ring is `ℂ` (or `ℝ`).  Floating point rounding, overflow, NaN and
  dtypes are not modelled.
* **Arrays.** A numpy array is a shape (a list of naturals) plus an entry function on index lists
  (`ND`).  Two arrays are "array_equal" (`≈`) when shapes agree and the entries agree at all
  in-bounds indices.  Views/aliasing are modelled only where a property is about them (C40, C04).
* **Exceptions** are values: a model function returns `Except PyErr α`; each place where numpy or the
  code raises is an `.error` branch.  A theorem that a call "returns x" says the result is `.ok x`.
* **Loops.** `for` loops are folds, `while` loops are recursions with explicit fuel; running out of
  fuel is the error `diverges`, and the theorems show that it does not occur (or, for the iterations of
  `iMPS.mixed`, say what holds when it does not).
* **Sets.** The iteration/pop order of Python sets is a parameter (any choice function); theorems
  hold for every choice.
* **Objects.** A class instance is a record of its attributes; methods that change the receiver return
  the changed record.  Attributes that a method forgets to update stay as they were (this is how stale
  `L`, `D`, `is_left_canonical` … are found).
* **External numerics** (SVD, QR, RQ, eig, polar, null_space, Cholesky, inverse, ARPACK) are parameters
  with a contract.  The contracts are part of the trusted base below.
* **Sites** are natural numbers; Python's negative indices are modelled only where the code relies on them.

## Layout

* `Verif/Base/*`   Python/numpy primitives and lemmas about them.
* `Verif/Model/*`  the code, function by function, each definition citing file and lines.
* `Verif/Spec/*`   small specifications, independent of the model, and the contracts of external numerics.
* `Verif/Lemmas/*` supporting proofs.
* `Verif/Props/*`  property theorems with their `example`s.

## Trusted base

1. The Lean 4.33.0 kernel and the axioms `propext`, `Classical.choice`, `Quot.sound`.  The appendix lists
   the axioms of every theorem in the manifest.  There are no own axioms, no `sorry`, no `native_decide`.
2. The correspondence between the Python text and the definitions in `Verif/Model` (each cites its lines).
3. The numpy semantics in `Verif/Base`: `transpose`, `reshape` (row major), `tensordot`, `einsum`, `trace`,
   `swapaxes`, `@`, `kron`, `pad`, `concatenate`, slicing as far as the code uses them, with their `ValueError`s.
4. The contracts of the external numerics.  Every contract is a definition in `Verif/Spec` (or next to its
   theorem), and for every contract there is a theorem that a function satisfying it exists, so no theorem is vacuous:

| contract | stands for | assumed | satisfiable by |
|----------|-----------|---------|----------------|
| `QRLaw`, `RQLaw` | `scipy.linalg.qr/rq(mode='economic')` | factors multiply back, isometry, shapes, `R` upper triangular | `qrLaw_exists`, `rqLaw_exists` |
| `QRFullLaw` | `scipy.linalg.qr` (full) | unitary `Q`, `R` upper triangular, `A = Q R` | `TensorMisc.qrFullLaw_exists` |
| `RQUpper` | `rq` of a square matrix | moreover the triangular factor is upper triangular | `rqUpper_exists` |
| `SVDLaw` | `svd_robust.svd(full_matrices=False)` | factors multiply back, isometries, values decreasing and ≥ 0 | `svdLaw_exists` |
| `EigLaw` | `numpy.linalg.eig` | independent unit eigenvectors | `eigLaw_exists` |
| `EigOrthoLaw` | `numpy.linalg.eig` on positive semidefinite matrices | **more than numpy documents**: orthonormal eigenvectors, zero eigenvalues last | `eigOrthoLaw_exists` |
| `NullLaw`, `NullRow` | `scipy.linalg.null_space` | orthonormal basis of the kernel, no rank tolerance | `nullLaw_exists`, `nullRow_exists` |
| `PolarLaw` | `scipy.linalg.polar` | unitary times positive semidefinite | `polarLaw_exists` |
| `InvLaw` | `numpy.linalg.inv` | exact inverse of an invertible matrix | `invLaw_exists` |
| `LogLaw` | `scipy.linalg.logm` on unitary matrices | skew-Hermitian, exponential is the argument | `logLaw_exists` |
| `CholLaw`, `CholTriLaw` | `cholesky` | `X X† = M` for positive definite `M` (lower triangular, positive diagonal) | `cholLaw_exists`, `cholTriLaw_exists` |
| `LeadingLaw` | `scipy.sparse.linalg.eigs(k=1)` on an operator with more than two rows | an eigenvalue of largest modulus and a unit eigenvector | `leadingLaw_exists` |
| `RootLaw` | `scipy.optimize.root` on functions of complex `D × D` matrices | a root is found if there is one | `rootLaw_exists` |
| `ArnLaw` | `scipy.sparse.linalg.eigs(M, k=1, which='LM')` in `r_eigenmatrix`, `l_eigenmatrix`, `direct_sum`, `haar_unitary`, `tr_svd`, `get_null_space` | for a transfer matrix with positive definite fixed points of a simple eigenvalue: that eigenvalue and a multiple of its eigenvector, with a phase that is not purely imaginary | `arnLaw_exists` |
| `FixLaw` | `TransferMatrix.eigs` in `find_ground_state` and `iTDVP.py` | where it returns: positive definite fixed points of a simple eigenvalue, the trace of the product one | `fixLaw_exists` |
| eigensolver of `TransferMatrix.eigs` | `scipy.sparse.linalg.eigs(k=1)` | returns some multiple of the leading fixed points | `eigs_ok` and witnesses |

   Objects are values in all models but `Model/Heap`, where arrays, lists and objects have addresses: there every result of a `numpy` or
   `scipy` call is a new array (views of a new array count as new), and only `/=` writes into an existing one.
   `scipy.linalg.expm`, `scipy.sparse.linalg.expm_multiply` are the exact matrix exponential.
   `numpy.sign` of a complex number is that of numpy 1 (sign of the real part) — it matters for `uqr`.
   `qutip` operators are their matrices: `tensor` is the Kronecker product, `*` the matrix product, `op**n` for `n` 0 or 1 the identity or the operator,
   `.full()` the array; `pymps` in `projects/` is this package.
   `int(n**0.5)` is the exact integer square root.  `log` of a weight is the real logarithm.

## What is modelled and what is not

| file | modelled | not modelled |
|------|----------|--------------|
| `ncon.py` | all functions | other tensor classes (the `AttributeError` branches), message texts |
| `tensor.py` | `embed`, `deembed`, `uqr`, `urq`, `unitary_extension`, `ρA`, `partial_trace`, `truncate_A/B`, `diagonalise`, `rotate_to_hermitian`, `rank`, `mps_pad`, `loc`, `loc_3`, `split_up`, `split_up_3`, `r_eigenmatrix`, `l_eigenmatrix`, `direct_sum`, `haar_unitary`, `tr_svd`, `get_null_space` | `lanczos_expm`, `ldot`/`rdot` on their own, `basis_iterator` |
| `fMPS.py` `fMPS` | constructor, `==`, arithmetic, `apply`, `post_select`, two-site gates, `apply_two_site_isometry`, `random`, `random_with_energy_E`, `recombine`, `left/right_from_state`, `create_structure`, orthogonalisations, canonicalisations, entropies, overlaps, environments, transfers, expectation values, `energy`, serialisation and files, padding, `expand`, `match_gauge_to`, `left_null_projector`, `dA_dt` (list of two-site terms and `fullH`), `tangent_state`, `tangent_space_dims`, `tangent_space_basis`, `extract/import_tangent_vector`, `F1`, `F2` (list of two-site terms), `christoffel` (no tensors, or one for the third site), `projection_error`, `should_expand`, `dynamical_expand`, `grow`, `right_null_projector`, `jac` (`as_matrix=True`), caches of `F1`, `F2`, `christoffel`, sharing of lists and arrays between objects | `ddA_dt`, `christoffel` with other tensors, `F1`/`F2` with `fullH` or `testing`, printing |
| `fMPS.py` `fTFD`, `vfMPS` | `from_fMPS`, `random`, `symmetry`, `symmetrise`, `symm_asymm`, `fs`, `get_vL` (null vectors a parameter), `E`, `Es`, `dA_dt`; the Vidal form round trip | `add` (the text of `fMPS.add`), `local_overlap` (always raises `TypeError`), the rest of `fTFD` |
| `iMPS.py` | `Map`, `TransferMatrix`, `canonicalise`, `mixed`, `E`, `energy`, `left_fixed_point`, `overlap` (one tensor per unit cell), indexing, (de)serialisation and files of unit cells, `Lh`, `Rh`, `left_null_projector`, `dA_dt`, `ivMPS.random`, `ivMPS.transfer_matrix`, `ivMPS.canonicalise`, `ivMPS.to_iMPS`, `ivMPS.E` (one pair per unit cell) | ARPACK itself, `update`, larger unit cells |
| `fPEPS.py` | `fMPO` products, `random`, `trivial`, rotations, `fPEPS` construction, `T`, `R`, `U`, `overlap`, `norm`, `apply`, `E`, `normalise`, `add`, `recombine`, `full_overlap`, `from_mps`, `contract`, `E_k`, `rho`, `rho_proj`, `create_structure`, `random` (entries a parameter), `fix_neighbours`, `==`, truncations used by `isometrise`, `isometrise`, `iso_E`, `iso_Es`, `factors`, moses moves up to `U2` | `environment`, what follows `U2`; the object left behind when `isometrise` raises |
| `peps_tools.py` | `group_legs`, `ungroup_legs`, `inverse_transpose`, `E2`, `renyi`, `renyi_2_disentangler` | `U2` (does nothing), printing |
| `spin.py` | gates, `levi_civita`, `n_body`, `spins`, `ladders`, `paulis`, `su`, `components`, `Nsphere`, swap tools, `lambdas`, `slambdas`, `antiferro`, `ferro`, `SU`, `SU4`, `SU8`, `U4`, `U4s`, `insu2N`, `extractv`, `to_new_v`, `equal_up_to_phase`, `CR`, `pCR` | `U1`, `U2` (always raise), `spinHamiltonians` (a function that returns `None`) |
| `Hamiltonians.py` | `__init__`, `to_matrices`, `to_mpo`, `to_full`, `to_matrix` | `from_matrix`, printing |
| `fTDVP.py`, `iTDVP.py` | `euler`, `rk4`, trajectory bookkeeping, run directories, exact diagonalisation (`edint`, `ed_evs`, `ed_energies`, `ed_OTOC`), `schmidts`, `von_neumann`, `renyi`, `loschmidt`, `mps_evs`, `mps_energies`, `lyapunov`, `mps_OTOC`, `ts_int` (the step to the next state is a parameter); of `iTDVP.py` also `eulerint`, `rk4int`, `loschmidts` | integration with the inversefree integrators, `lyapunov2`, `odeint`, plotting |
| `mps_examples.py` | `bell`, `comp_z`, `comp_x`, `i_comp_z`, `i_cat`, `AKLT` | – |
| `tests.py` | all predicates | – |
| `qmb.py` | `S_n_body`, `anisotropic_heisenberg`, `local_anisotropic_heisenbergs`, `local_ising`, `local_isings`, `local_XX` | `anisotropic_heisenberg_mpo` (undefined names) |
| `projects/fMPO.py` | `anisotropic_heisenberg`, environments, `get_envs`, `effH` | `DMRG` sweeps and `optimize`, sparse eigensolver |
| `projects/fHam.py`, `projects/iHam.py` | `heis`, `isin`, `optimise` of `fHam.py`; `optimise` of `iHam.py` with `method='euler'` | `optimise` of `iHam.py` with other methods |
| `svd_robust.py` | `svd` | `svd_gesvd` and loading LAPACK (scipy before 0.18) |
| `iOptimize.py` | `find_ground_state` (matrices `H` with one two-site term) | the progress bar |
| `left_transfer.pyx` | `lt` | C integers that overflow |
| the other `projects/*` | – | all |

## Where the code does not do what is claimed

Each item is a theorem (the negation, with a concrete witness) unless marked *(read)*, which means seen in the text only.

1. `ncon` extends the caller's `order` list on every disconnected network, so the repeated call raises (C04).
2. `ρA(u, [], dims)` returns something other than the squared norm (C06).
3. `split_up(H)` with `d=None` raises `TypeError`; `split_up_3` is wrong for `d ≥ 3` (C07).
4. `fMPS.add` on one site drops the other summand (C09).
5. `apply_two_site` sorts the sites, so a gate on `(1, 0)` acts as on `(0, 1)`; it leaves flags stale (C12, C24).
6. `post_select` does not update `L`; `recombine` then returns an array of the wrong rank (C13).
7. `overlap` and `full_overlap` are complex conjugates of each other (C14).
8. `mixed_orthogonalise(0)` loses the norm (C15).
9. `left_canonicalise` can return the zero state when `eig` does not order its eigenvalues (C16).
10. `create_structure(1, …)` raises `IndexError` (C19).
11. `deserialize` without a structure is wrong for non-standard bonds (C20); `load` fails for names without `.npy` (C21).
12. `E` and `E_` use the transposed operator (C23); the same in `fTFD.E/Es` (C59) and `iMPS.E(op, 'r'/'l'/'m')` (C61).
13. `mixed_canonicalise` records the wrong centre (C24).
14. `Hamiltonian(strings).to_full(L)` raises `AttributeError`; on two sites fields are halved; coefficients below 1e-8 vanish (C26).
15. `n_body(op, i, n)` with `i ≤ 0` returns the identity; with `d` given the chain has `n+1` sites (C28).
16. `paulis` ignores its argument; `ladders` returns the lowering operator first (C29).
17. `TransferMatrix.mvr` is the transpose, not the adjoint (C33).
18. Cache keys of `F1`/`F2` collide from 12 sites on; `christoffel` caches a value without its change of basis (C34).
19. `mps_list()` fails after `clear` when the bond dimension changed (C35).
20. `iTDVP.rk4` multiplies by `dt` once too often in the third stage (C36, and C129 `ITdvp.rk4_step`).
21. `right_transfer` exchanges indices at every site, is shifted by one and with `ret_all=False` returns its input; `get_envs` loses off-diagonal entries (C41).
22. `fMPO.recombine` raises on one site and returns the conjugate transpose (C42).
23. `iMPS.canonicalise('m')` is not normalised (C46); `iMPS.energy` pairs with the transposed fixed point and is not divided by the eigenvalue squared (C62).
24. Run numbers repeat from the eleventh run on (C47).
25. `swap_antisymmetrise` is not the antisymmetriser (C52).
26. `energy` is wrong on chains that have not been canonicalised (C55).
27. `is_right_env_canonical`/`is_left_env_canonical` never look at the last tensor (C56).
28. `uqr` of a rank deficient matrix is not an isometry (C58).
29. PEPS: after `R`, `U` the recorded centre is wrong on grids that are not square (C38); a single column makes `overlap`, `norm`, `E` raise (C60).
30. `vfMPS` stores squared Schmidt coefficients (C50).
31. `import_tangent_vector` raises when a site without tangent vectors is not at the start of the chain (C49); `tangent_state(X, n)` without `vL`
    always raises: its conditional expression is parsed as a tuple (C65).
32. `fMPS(x.data)` is not a copy: it shares the list with `x` (C40; documented nowhere, `copy()` is safe).
33. `ferro()` is not an SU(2) spinor: `m_z` is half of what the relations require (C69).
34. `equal_up_to_phase` tells matrices apart that differ by a phase if their top left entry is zero (C71).
35. *(read)* `U1`, `U2` subscript the function `locals` and always raise `TypeError`; `spinHamiltonians` is a function, not a class.
36. *(read)* `fTFD.local_overlap` raises `TypeError`; `fTFD.Es` keeps complex values; `vfMPS.__init__` with data does not store it;
    `fMPO().trivial` does not set `L`; `fPEPS.col_mpos(other)` ignores `other`; `fPEPS.copy(data)` ignores `data`;
    `rotate_to_hermitian` fails when the first entry is purely imaginary; `iMPS.right_null_projector` raises `NameError`;
    `_lmixed` divides the caller's `L0` in place; `hand is 'r'` compares identities.
37. `edint` uses `T[1]-T[0]` as the step for the whole list: with unequally spaced times the entries are not the states at `T[k]`; it raises
    `IndexError` for fewer than two times and `ValueError` for a chain of one site (C72).  `ed_OTOC` also raises for one time (C73).
38. `mps_list()` after `edint` returns at most one state (C35).
39. `fMPS.__call__` and `iMPS.__call__`, documented as 1-based, return `data[k+1]` (C76).
40. `Map.left_fixed_point`, and with it `iMPS.overlap`, is `nan` when the first entry of the leading eigenvector is zero (C75).
41. *(read)* scipy's `eigs` refuses operators with fewer than three rows: everything that needs the fixed points of an `iMPS` of bond dimension one
    raises.  The theorems on `canonicalise` hold for `D = 1` with an eigensolver that returns; the witnesses have `D = 2`.
42. `iMPS.store(f)` and `load(f)` disagree on the name unless it ends in `.npy` (C74), as for `fMPS` (C21).
43. The docstring of `comp_x` has the states 2 and 3 exchanged (C77).
44. `AKLT()` is not the AKLT state: the middle matrix has the factor `sqrt(1/2)/2` instead of `sqrt(1/3)` (C78).
45. On a chain whose environments are not diagonal `dA_dt` returns a tensor that is not in the left gauge, because `get_envs` keeps only the diagonals
    of the environments (C48, `dAdt_not_gauge`): the tangent vector has a component along the state.
46. `iMPS.Lh` carries its terms with `Σ A_s† K A_s` although the first index of `K` is that of the ket; for complex tensors it is not the sum of the
    terms (C79, `Lh_not_sum`), and `iMPS.dA_dt` is then not the TDVP tangent vector (C80, `dAdt_not_tdvp`).
47. `iMPS.Rh` has `r` twice in its right-hand side, so the terms are closed with `r rᵀ` instead of `r` (C81, `Rh_not_sum`).
48. `ivMPS.E(op)` contracts the operator with its legs exchanged and returns the expectation value of the transpose (C83, `E_not_expectation`).
49. `fPEPS(data)` counts `Lx` as the number of rows, `random` and `add` as the number of columns: on a grid that is not square, `add` on a PEPS made by the constructor (also on the result of another `add`) pads the wrong legs and returns something that is no PEPS (C84, `add_not_peps`).
50. `fPEPS.recombine('row_snake')` merges the vertical bonds of odd rows from right to left and those of even rows from left to right, and so joins mirror-image columns when more than one bond between two rows is not trivial (C85, `recombineSnake_twist`, `recombineSnake_wrong`).
51. `fPEPS.from_mps(mps, Lx)`: a single column gets its bonds on the wrong legs, and the assertion tests `Lx` instead of the number of rows, so that tensors of an incomplete row are dropped (C87, `fromMps_column`, `fromMpsLx_drops`).
52. `fPEPS.E_k(op, sites)` is documented to take `op` in reading order, but reads it column by column (C86, `expK_not_reading`); for a block as wide as the grid it raises `ValueError` (`expK_full_width`).
53. `fPEPS.rho_proj(other, sites)` is documented as the partial trace of `|self><other|`, but leaves out the overlaps of the sites traced over (C88, `rhoProj_wrong`).
54. `F2(0, j, H)` of a state of norm `n` is `n` times the matrix element: `ch_l(i-1)` at site 0 reads the environment of the whole chain instead of 1 (C89, `exScaled_wrong`).
55. `F1(i, j, H)` takes the terms on the sites next to `min(i, j)` transposed: for the Hermitian term `i|10><01| - i|01><10|` and the state `|00>` the result has the wrong sign (C90, `exTwist_wrong`).
56. `F1(i, j, H)` with `j > i + 1` contracts the ket bond of the term on `i, i+1` with the bra bond of the right environment and conversely: wrong for real symmetric terms as well (C90, `exGap_wrong`).
57. `F1` reshapes every term to `(2, 2, 2, 2)` and raises `ValueError` for any other local dimension (C90, `FMPS.f1_dim`).
58. `christoffel(..., closed=(None, None, M))` takes environments from `dA_cache`, which `dA_dt` writes and nothing clears: after the tensors of the object change the result is that of a mixture of both states (C91, `exQ_stale`).
59. `jac` counts the sites without coordinates and then skips as many at the left end: if such a site lies elsewhere (`|0⟩ ⊗ (|00⟩ + |11⟩)`) it raises `ValueError` (C92, `FMPS.jac_gap`, `FMPS.exGap_jac`).
60. `lyapunov` starts `exps` as `[array([0])]` and takes `np.array(exps[-conv_window-1:])`: with numpy 1.24 or later (`setup.py` sets no bound) the first round raises `ValueError` for arrays of different lengths (C97, `Tdvp.lyapunov_ragged`).
61. `lyapunov(just_max=True)` appends nothing to `exps`, so the exponents returned are an empty array; it follows the first row of the basis, whose vectors are columns (C97, `Tdvp.lyapunovMax_spec`).
62. `lyapunov` divides a list by `dt` (`exps[k+1:n+2]/dt`): a `TypeError` unless `T` holds numpy numbers *(read)*.
63. `von_neumann` and `renyi` make one array of the lists of Schmidt weights: with numpy 1.24 or later they raise `ValueError` as soon as one recorded state is entangled across one cut, and otherwise return only zeros (C100, `Tdvp.vonNeumann_strict_fails`, `Tdvp.vonNeumann_strict_zero`, `Tdvp.bell_fails`).
64. `loschmidt()` after `edint` returns Schmidt weights, a copy of `schmidts` (C101, `Tdvp.loschmidt_ed`).
65. `loschmidt()` reads the whole history with the present bond dimension: `ValueError` after `expand` (C101, `Tdvp.loschmidt_expand_fails`).
66. `mps_energies()` reports the energy per site for a list of terms and the total energy for a full Hamiltonian; `ed_energies()` always the total (C101, `Tdvp.mpsEnergies_hist`).
67. `isometrise` on an `L` by `L` PEPS made by `random` raises `Exception` for `L ≥ 8` and `X > d²`, `d ≥ 2` (also for `L = 7` unless `oc = (3, 3)`): the truncations do not make the tensors next to the corners large enough (C104, `FPEPS.random_isometrise`).
68. `fPEPS(data)` sets `Lx` to the number of rows, `random` to the number of columns; `isometrise` takes it for the number of columns. Every PEPS made by the constructor, `copy`, `T`, `R`, `apply`, … whose grid is not square raises `IndexError` (C104, `FPEPS.isometrise_constructed`).
69. `truncate_below` compares the row with `Lx - 1` and `truncate_left` runs over `range(Lx)` rows: `isometrise` raises `IndexError` with more columns than rows and `Exception` with one row more than columns (C104, `FPEPS.isometrise_rect`).
70. `U2` in `peps_tools.py` is `pass`: `split_tensor` raises `TypeError`, so that no Moses move and no `iso_E` away from the centre returns (C105, `FPEPS.isoE_off_centre`).
71. `isometrise` cuts the bonds along the outermost rows and columns to 1: a 2 by 2 PEPS becomes a product state (C102, `FPEPS.vIso`, `FPEPS.hIso`).
72. `projection_error` redefines `l` as `def l(n): return ln`: from the second open bond on it is a constant of the wrong size unless the bond dimensions happen to match, and `ValueError` is raised, e.g. for `|0⟩(|00⟩+|11⟩)|0⟩` (C107, `projectionError_pair`).
73. `dynamical_expand` contracts `H` with its second output leg on the ket (`[3, 6, 2, 7]`) and leaves out `-i`: the eigenstate `|00⟩` of `XX + YY` becomes `|00⟩ + 2 dt |11⟩`, and for `XX` the step is one of imaginary time (C108, `grow_eigenstate`, `grow_phase`). `projection_error` contracts `H` correctly.
74. `Trajectory.dynamical_expand(D, dt, H)` ignores `H`; with `self.H` None it raises `TypeError` (C109, `trajExpand_own`).
75. `effH`: the right environments of `get_envs` carry the ket index before the bra index and are used the other way round, so `asmatrix` and `mv` belong to an operator with the right bond indices of bra and ket exchanged. For two sites with `J = 2`, `Jz = 1` no energy below −1 can be found at the first site; the ground state energy is −2 (C111, `ProjMpo.asmatrix_wrong`).
76. `effH.mv` returns the axes (left, site, right), `asmatrix` takes (site, left, right): they differ wherever the left bond is larger than 1, and the file's own test compares them there (C111, `ProjMpo.mv_wrong`).
77. `anisotropic_heisenberg(1, …)` of `projects/fMPO.py` is an MPO of two sites and `local_anisotropic_heisenbergs(J, Jz, h, 1)` one two-site term (C110, C112). `S_n_body(op, i, n)` with negative `i` is the identity (C112, `Qmb.sNBody_low`).
78. *(read)* `qmb.anisotropic_heisenberg_mpo` uses the undefined names `sz`, `sm`, `sp`, `I`, `O`. Files in `projects/` import the package `pymps`, which does not exist.
79. `fTFD.dA_dt(H)`: `kron(eye, h) + kron(h, eye)` is given to the super class as a two-site matrix, so every `h` acts on the two copies of single sites; sites are never coupled (C113, `TFD.dAdt_eq`, `TFD.dAdt_wrong`). *(read)* its argument `fullH` is handed on as `store_energy`.
80. `mps_OTOC` calls the undefined name `tdvp` as soon as an interval has a time step (C114, `Tdvp.mpsOTOC_name`). Without steps every entry lies between 3/2 and 5/2, also for commuting operators (`Tdvp.mpsOTOC_wrong`). `apply` returns a new object that is dropped, so `V` is not applied in the end. *(read)* `odeint` uses `solve_ivp` without importing it.
81. `fMPS.rho_proj` conjugates the tensors of `self` outside the sites: for `x = |0⟩(|0⟩+i|1⟩)` the partial trace of `|x⟩⟨x|` on the first site has the entry 2, the method returns 0 (C115, `FMPS.rhoProj_wrong`). It returns `None` for bond dimensions above one (`FMPS.rhoProj_none`).
82. `local_overlap` with a product state is too large by the squared norm of its tensors on the sites (C116, `FMPS.localOverlap_wrong`), while states with larger bonds are normalised first. `k_local_approx_overlap` is the complex inner product for `k=None`, the squared modulus for `k=L` (`FMPS.kLocal_full`), nan for larger `k`; its argument `L` is unused.
83. `apply_two_site_isometry` writes the new tensor to one of the two sites and keeps the other: the tensors fit together only if the bond between the sites equals the outer one (C117, `FMPS.applyTwoSiteIsometry_chain`). *(read)* For sites that are not neighbours and `lr=1` it writes site `j` although the two tensors were moved to `i` and `i+1`.
84. `fMPS.random(L, d, 1)` has local dimension 2 for every `d` (C118, `FMPS.random_product_wrong`); one site with another `D` is an `IndexError` (`FMPS.random_one_site`); the attribute `oc` of the object survives, and `rho` then returns a matrix of the wrong trace (`FMPS.random_stale`).
85. `random_with_energy_E` never ends when the energy stops changing less than 0.01 away from `E`: the test for a local minimum needs `abs(dE)>1e-2`, and `maxiters` counts only the outer loop (C119, `FMPS.randomWithEnergy_endless`; with the identity on two qubits and `E=0.505`: `FMPS.randomWithEnergy_identity`). The message "local minimum" is also raised when the energy is as high as it can be.
86. `projects/fHam.isin`: the field acts twice on the sites 3 to L-1; the list is the Ising chain for three sites only (C120, `ProjHam.isin_three`, `ProjHam.isin_wrong`), the second of two sites has no field (`ProjHam.isin_two`), and for one site there is a two-site term (`ProjHam.isin_one`). `iHam.isin` has the field 2λ (`ProjHam.iIsin_sum`).
87. `heis` of both scripts has `Sz12@Sz12`, the square of `Sz` on the first site of the bond, in place of `Sz12@Sz22` (C120, `ProjHam.heis_sum`, `ProjHam.heis_wrong`); for spin 1/2 the anisotropy only adds the constant Δ/4 per bond (`ProjHam.iHeis_sum`).
88. `projects/fHam.optimise` divides `energy(H)`, already per site, by `L` again (C121, `ProjHam.optimise_value`, `ProjHam.optimise_identity`), and a step of 0.1 can raise the energy (`ProjHam.optStep_up`: from 45 to 69.8).
89. `tensor.direct_sum(A, B)`: the zero blocks have the shapes `(A.shape[1], B.shape[0])` and its transpose, so `numpy.block` raises `ValueError` unless both matrices are square (C123, `TensorMisc.directSum_wrong`).
90. `spin.CR` and `spin.pCR` accept any operators smaller than the absolute tolerance of `allclose` (C122, `Spin.CR_wrong`). The docstring of `get_null_space` promises `v.T v = 1`; what holds is `v† v = 1` (C124).
91. `peps_tools.renyi_2_disentangler` never ends with `max_iter` at most 2, or a negative `eps`: the test that ends it runs from the third round of a start on (C127, `Disent.disentangler_diverges`).
92. `peps_tools.renyi_2_disentangler` takes the polar factor of `E2` where the gate that lowers the entropy is its adjoint (the comment "with only one iteration S oscillates. v. weird" is about this). For the normalised state `psiW` every round raises the entropy above that of the state left alone (C127, `Disent.disentangler_up`, `Disent.disentangler_up_run`).
93. `find_ground_state` compares `tol` with `ϵ` times the norm of the gradient: the smaller the step, the earlier it stops, and for every small enough `ϵ` it returns the random state it started from, with an empty list (C128, `IMPS.findGround_small`). The energy of the state returned is never in the list (`IMPS.findGround_spec`: the `k`-th number belongs to the state before step `k`).
94. `find_ground_state` always takes local dimension two; for another `H` it raises `ValueError` in the first round (C128, `IMPS.findGround_size`). For `D = 1` the eigensolver refuses the 1 × 1 transfer matrix *(read)*.
95. `eulerint` and `rk4int` of `iTDVP.py` take `T[1] - T[0]` for every step: other spacings are ignored (C129, `ITdvp.integrate_times`), and a single time is an `IndexError` (`ITdvp.integrate_short`). The step after the last time is computed and dropped (`ITdvp.integrate_spec`).
96. `optimise` of `projects/iHam.py` asks for the energy of a state in the mixed gauge, whose leading eigenvalue is `tr(lᵀ r)` and not one; `energy` does not divide by it, so the number returned, and the numbers the stopping rule compares, are the energy per bond times `tr(lᵀ r)²` (C130, `ProjHam.energy_mixed`, `ProjHam.iOptimise_wrong`). It is right when one of the fixed points is symmetric (`ProjHam.energy_mixed_partial`).
97. `fTFD.random(L, d, 1)` ignores `d`: the tensors have local dimension 4 while the attribute says `d²` (C131, `TFD.random_pure_wrong`). `random(L, d, 1, pure=False)` always raises `ValueError` (`TFD.random_mixed_one`), and one site raises `IndexError` unless `D = 1` (`TFD.random_one_site`).
98. `fTFD.symm_asymm` writes the projectors in a basis that lists the symmetric vectors first, which is not the basis of the pairs `i D + j` that `kron` uses: for `D ≥ 2` the "symmetric" projector takes a symmetric vector to zero (C132, `TFD.symmAsymm_wrong`). `fTFD.local_overlap` calls `isinstance` with a string and always raises `TypeError` *(read)*.
99. `qmb.local_XX(J, g)` ignores `g`: the field along z is `-J`, and is missing on the last site of an open chain (C133, `Qmb.localXX_spec`, `Qmb.localXX_wrong`).
100. `fPEPS.fix_neighbours` takes `Lx` for the number of columns; on a network made by the constructor that is not square it raises `IndexError` on the last column or row (C135, `FPEPS.fixNeighbours_tall`, `FPEPS.fixNeighbours_wide`).
101. `==` of `fMPS` and of `iMPS` zips the lists and leaves shapes to `allclose`: a chain is equal to every longer one that begins with it (C136, `EqMps.eq_prefix`), chains with bonds of dimension one and two can be equal although their amplitudes are 1 and 2 (`EqMps.eq_broadcast`), other bond dimensions raise `ValueError` (`EqMps.eq_raises`), and the relation is not symmetric (`EqMps.eq_asymmetric`).
102. `==` of `fPEPS` compares the shapes, but zips the rows and their tensors and does not look at `Lx` and `Ly`: with the same attributes, a network is equal to every one that goes on below it (C137, `FPEPS.eq_rows`).
103. `create_structure` of `fMPO` lists a first and a last shape for every length: `fMPO().random(1, d, X)` has two tensors and `L = 1` (C138, `FMPO.random_short`), and so has the boundary row `trivial(1)` that `environment` puts around a network of one column (`FMPO.trivial_short`). `trivial` does not set `L`.
104. `get_vL` of `fTFD` raises `ValueError` at every site whose left bond is not a square (C141, `TFD.splitVL_raises`); such bonds are possible for `pure=False`.

## Per property

### C01 ncon computes the Einstein sum — proved

*Claim.* For a well-labelled network (each positive label occurs exactly twice, each negative label exactly once, no label 0, one label per leg, equal extents at the two ends of a contracted label) ncon returns, without raising, the array whose entry at free index f is the sum over all values of the contracted labels of the product of the tensor entries.

*Modelled.* all of `ncon.py` (`Model/Ncon`)

*Proof.* loop invariant: the labelled sum of the network is preserved by each contraction step; a connectivity invariant gives a single tensor at the end

*Result.* all tensors over a commutative semiring, all labelings incl. traces and disconnected graphs, all orders, all set iteration orders.

*Theorems.* `Ncon.ncon_einsum`, `Ncon.ncon_einsum_default`, `Ncon.ncon_single`

### C02 ncon result does not depend on the contraction order — proved

*Claim.* Two calls of ncon that differ only in the `order` argument (any two permutations of the contracted labels) return equal arrays; passing a different `forder` permutes the legs of the result and nothing else.

*Modelled.* all of `ncon.py`

*Proof.* both calls equal the same Einstein sum (C01)

*Theorems.* `Ncon.ncon_order_independent`

### C03 ncon index check rejects exactly the malformed networks — proved

*Claim.* With check_indices=True and default orders, ncon raises ValueError exactly when the number of label lists, the number of labels of a tensor, the multiplicity of a label or the extents of a contracted label are wrong, and otherwise returns an array.

*Modelled.* `do_check_indices` branch by branch

*Proof.* case analysis of the checks against the specification of a well-labelled network

*Theorems.* `Ncon.ncon_check_exact`, `Ncon.ncon_check_irrelevant`

### C04 ncon does not modify its arguments — partial

*Claim.* After ncon returns, the caller's list of tensors, label lists, order and forder are what they were, so the same call can be repeated with the same result.

*Modelled.* effect of `connect_graph` on the caller's `order` list

*Proof.* the appended labels are tracked; witness for every disconnected network

*Result.* The code violates the property: on every disconnected network the caller's order list is extended and the repeated call raises (ncon_repeat_raises). It is unchanged iff the network is connected.

*Theorems.* `Ncon.ncon_order_unchanged_iff_partial`, `Ncon.ncon_repeat_raises`

### C05 group_legs and ungroup_legs are inverse — proved

*Claim.* ungroup_legs(*group_legs(a, cl)) is a, and the grouped array has entry at the row-major ravelled grouped indices equal to the entry of a, for any partition cl of the axes of a into ordered groups.

*Modelled.* `group_legs`, `ungroup_legs`, `inverse_transpose`

*Proof.* ravel/unravel are inverse; permutation inverse

*Theorems.* `groupLegs_entries`, `ungroup_group`, `inverseTranspose_spec`, `ungroupLegs_rank`

### C06 partial traces are reduced density matrices — partial

*Claim.* ρA(u, keep, dims) is the partial trace of |u><u| over the complement of keep; it is Hermitian, its trace is the squared norm of u, and partial_trace of the outer product returns the same array.

*Modelled.* `ρA`, `partial_trace`

*Proof.* einsum semantics; sums over the traced axes

*Result.* proved for every non-empty keep; for keep=[] the code violates the claim (rhoA_nil).

*Theorems.* `rhoA_entries`, `partialTrace_entries`, `rhoA_eq_partialTrace`, `rhoA_hermitian`, `rhoA_trace`, `rhoA_nil`, `rhoA_out_of_range`

### C07 loc and split_up agree with kron — partial

*Claim.* H[loc(st, uv, d)] is A[st]*B[uv] for H = kron(A, B), and split_up(H, d)[k,i,l,j] is A[i,j]*B[k,l]; with p, q given the same holds for rectangular B.

*Modelled.* `loc`, `split_up`, `loc_3`, `split_up_3`

*Proof.* division algorithm

*Result.* split_up with d=None always raises TypeError; split_up_3 is wrong for d>=3 (both proved).

*Theorems.* `kron_loc`, `splitUp_kron`, `splitUp_rectangular_raises`, `splitUp3_kron`, `splitUp3_wrong`

### C08 recombine returns the amplitudes — proved

*Claim.* fMPS.recombine()[s1..sL] is the sum over all bond indices of the product of the tensor entries, for every well-formed chain.

*Modelled.* `__init__`, `recombine`

*Proof.* induction on the chain

*Result.* chains with equal local dimensions (recombine allocates d^L); bond dimensions and length arbitrary.

*Theorems.* `FMPS.recombine_amplitudes`, `FMPS.constructor_holds`

### C09 MPS addition adds states — partial

*Claim.* x.add(y).recombine() == x.recombine() + y.recombine(), and x.add(y.mul(-1)) subtracts, for two chains of the same length and local dimensions.

*Modelled.* `add`, `mul`

*Proof.* block structure of the summed tensors, induction on the chain

*Result.* holds for L>=2; violated for L=1 (negation proved).

*Theorems.* `FMPS.add_state_partial`, `FMPS.add_recombine_partial`, `FMPS.sub_state_partial`, `FMPS.add_one_site_drops_other`, `FMPS.add_not_sum_one_site`

### C10 scalar multiples of an MPS — proved

*Claim.* c.mul scales every amplitude by c exactly once; * and / act on every tensor.

*Modelled.* `mul`, `__mul__`, `__truediv__`

*Proof.* induction on the chain

*Theorems.* `FMPS.mul_state`, `FMPS.mulItem_state`, `FMPS.truediv_state`

### C11 product states and single-site operators — proved

*Claim.* from_product_state(v) has amplitude prod v_k[s_k]; apply((op, site)) multiplies the state by op at that site, leaves the receiver unchanged, and applying a then b on one site equals applying b@a; operators on different sites commute.

*Modelled.* `from_product_state`, `apply`

*Proof.* local replacement in the chain

*Theorems.* `FMPS.fromProductState_state`, `FMPS.apply_state`, `FMPS.apply_comp`, `FMPS.apply_comm`

### C12 two-site gates act on the two named sites — proved

*Claim.* apply_two_site((op, (i, j))) with no truncation multiplies the state by op acting on sites i and j (first leg of op on i), also for distant sites.

*Modelled.* `apply_two_site`, `apply_unitary`, `group_tensors`, `separate_tensor_*`

*Proof.* local replacement lemma for two neighbouring sites; induction along the swap network

*Result.* For i<j (the quantifier of the property) proved for every pair, both 'which', any QR/RQ; neighbours of any local dimension; with D given: bond bound, isometry, normalisation, and the exact state up to a positive factor when D is not binding. Sites given in decreasing order are silently sorted (applyTwoSite_order: CNOT on (1,0) acts with the control on 0); a 2x2 operator with two sites raises.

*Theorems.* `FMPS.applyTwoSite_state`, `FMPS.applyTwoSite_spec`, `FMPS.applyTwoSite_neighbours`, `FMPS.applyTwoSite_svd`, `FMPS.applyTwoSite_order`, `FMPS.applyTwoSite_onesite_raises`, `FMPS.applyTwoSite_onesite`, `FMPS.applyTwoSite_stale`

### C13 post_select fixes a site — partial

*Claim.* post_select(site, which) leaves a chain of length L-1 whose amplitudes are those of the original with s_site = which.

*Modelled.* `post_select`

*Proof.* induction on the chain

*Result.* tensors correct; the attribute L is stale so recombine() returns an array of the wrong rank (proved).

*Theorems.* `FMPS.postSelect_data_partial`, `FMPS.postSelect_recombine_wrong`

### C14 overlap is the inner product — partial

*Claim.* overlap(x, y) is the inner product of the two state vectors and agrees with full_overlap(x, y); norm() is the squared norm, real and non-negative.

*Modelled.* `overlap`, `full_overlap`, `norm`

*Proof.* environment induction

*Result.* both are inner products but conjugates of each other; agreement violated (negation proved).

*Theorems.* `FMPS.overlap_inner`, `FMPS.overlap_length`, `FMPS.fullOverlap_inner`, `FMPS.overlap_star_fullOverlap_partial`, `FMPS.norm_real_nonneg`, `FMPS.overlap_ne_fullOverlap`

### C15 orthogonalisation preserves the state — partial

*Claim.* left_orthogonalise / right_orthogonalise / mixed_orthogonalise leave a chain whose tensors are isometries on the stated side of the orthogonality centre, have norm 1 and whose state times norm_ is the original state.

*Modelled.* `left/right/mixed_orthogonalise`

*Proof.* sweep invariant: isometries behind the centre, state preserved

*Result.* everything holds except: mixed_orthogonalise(0) stores norm_ = 1, so norm_ times the new state is not the old state (mixedOrthogonalise_norm_lost); QR/RQ are parameters with the LAPACK contract.

*Theorems.* `FMPS.leftOrthogonalise_spec`, `FMPS.rightOrthogonalise_spec`, `FMPS.mixedOrthogonalise_spec`, `FMPS.mixedOrthogonalise_norm_lost`, `qrLaw_exists`, `rqLaw_exists`

### C16 canonicalisation preserves the state — partial

*Claim.* left_canonicalise() and right_canonicalise() without truncation return a chain in canonical form whose state is the original up to a scalar.

*Modelled.* `left/right/mixed_canonicalise`

*Proof.* two sweeps: isometry sweep, then diagonalisation of the environments with orthonormal eigenvectors

*Result.* proved for an eig that returns orthonormal eigenvectors with zero eigenvalues last (EigOrthoLaw, shown satisfiable); false for numpy.linalg.eig's documented contract: leftCanonicalise_not_preserved returns the zero vector for |1>|0> with a redundant bond.

*Theorems.* `FMPS.leftCanonicalise_spec`, `FMPS.rightCanonicalise_spec`, `FMPS.leftCanonicalise_sweep`, `FMPS.rightCanonicalise_sweep`, `FMPS.mixedCanonicalise_spec`, `FMPS.leftCanonicalise_not_preserved`, `Spec.SchmidtAt.perm`, `Spec.SchmidtAt.sum_norm`

### C17 truncation bounds every bond — proved

*Claim.* After left_canonicalise(D) or right_canonicalise(D) every bond dimension is at most D, neighbouring bonds match and the outer bonds are 1.

*Modelled.* same as C16, with truncation

*Proof.* bond bound carried through both sweeps

*Result.* contracts SVDLaw and EigOrthoLaw; all tensors with the same local dimension, no empty axes.

*Theorems.* `FMPS.leftCanonicalise_spec`, `FMPS.rightCanonicalise_spec`, `FMPS.leftCanonicalise_sweep`, `FMPS.rightCanonicalise_sweep`, `schmidt_rank_bond`, `shannon_le_log`, `shannon_eq_zero`

### C18 left_from_state and right_from_state reproduce the vector — proved

*Claim.* The chain built from a state tensor has amplitudes proportional to the tensor, with a factor of modulus equal to the norm, and its tensors are isometries.

*Modelled.* `left_from_state`, `right_from_state`

*Proof.* induction on the number of sites split off

*Result.* state tensors with all axes of the same extent d >= 1; contract SVDLaw.

*Theorems.* `FMPS.leftFromState_spec`, `FMPS.rightFromState_spec`

### C19 create_structure yields a consistent open chain — proved

*Claim.* create_structure(L, d, D) lists L pairs with matching neighbours, outer bonds 1, bond i equal to min(d**min(i, L-i), D), and is symmetric under reversal.

*Modelled.* `create_structure`

*Proof.* closed form by induction

*Result.* proved for L>=2 as claimed; L=1 raises IndexError (proved).

*Theorems.* `FMPS.createStructure_spec`, `FMPS.createStructure_symm`, `FMPS.bondAt_ends`, `FMPS.createStructure_one`

### C20 serialize and deserialize round trip — partial

*Claim.* fMPS().deserialize(x.serialize(real), L, d, D, real) returns a chain equal to x, with or without an explicit structure.

*Modelled.* `serialize`, `deserialize`

*Proof.* induction on the chain

*Result.* with a structure: all chains; without: standard structure only, otherwise violated (deserialize_nonstandard).

*Theorems.* `FMPS.deserialize_serialize`, `FMPS.deserialize_standard`, `FMPS.joinReal_serializeReal`, `FMPS.deserializeReal_serializeReal`, `FMPS.deserializeReal_standard`, `FMPS.deserialize_nonstandard`

### C21 store and load round trip — partial

*Claim.* load(f) after x.store(f) returns a chain equal to x.

*Modelled.* `store`, `load` with a file-system map

*Proof.* round trip through the map; name rules of `np.save`

*Result.* holds for names ending in .npy; violated otherwise (load_store_fails).

*Theorems.* `FMPS.load_store`, `FMPS.load_store_structured`, `FMPS.load_other_name`, `FMPS.load_store_fails`

### C22 padding does not change the state — proved

*Claim.* mps_pad(x, y) returns chains with equal structure and the same states as x and y.  expand(D) on a chain whose bonds do not exceed the standard bonds for D returns an object with exactly the standard bonds whose state is the old one divided by the factor stored in norm_; if a bond would have to shrink it raises ValueError.

*Modelled.* `mps_pad`, `expand`

*Proof.* zero padding does not change sums; the sweep of C01 on the padded chain; shapes followed through the sweep

*Result.* mps_pad leaves the attribute D stale (mpsPad_stale_D).

*Theorems.* `FMPS.mpsPad_spec`, `FMPS.expandPad_spec`, `FMPS.expand_spec`, `FMPS.expand_raises`, `FMPS.mpsPad_stale_D`

### C23 expectation values are <psi|O|psi> — partial

*Claim.* For a normalised state E(op, site), Es([op], site), E_k(op, [site]) and Tr(rho([site]) op) all equal <psi|op|psi>.

*Modelled.* `E`, `E_`, `Es`, `E_k`, `E_L`, `rho`, `local_overlap`

*Proof.* isometry collapse of the environments

*Result.* Es, E_k, E_L, rho, local_overlap are right; E and E_ use the transposed matrix (E_spec, ECanon_spec), which is wrong for sigma_y (E_transposed).

*Theorems.* `FMPS.Ek_spec`, `FMPS.EkString_spec`, `FMPS.EL_spec`, `FMPS.Es_spec`, `FMPS.ECanon_spec`, `FMPS.rhoFull_spec`, `FMPS.rho_trace`, `FMPS.E_spec`, `FMPS.E_symmetric_partial`, `FMPS.E_transposed`, `FMPS.localOverlap_spec`

### C24 expectation values do not depend on the call history — partial

*Claim.* Whatever sequence of operations produced an MPS object, E(op, site) is the expectation value in the state the object currently holds.

*Modelled.* object flags of all modelled methods

*Proof.* invariant over call sequences

*Result.* holds for every sequence of left/right/mixed_orthogonalise, left/right_canonicalise, E, E_k and rho calls (history_partial); false after post_select (postSelect_stale) and after mixed_canonicalise, which records the wrong centre (mixedCanonicalise_stale) Also fails after apply_two_site (applyTwoSite_stale).

*Theorems.* `FMPS.history_partial`, `FMPS.Honest.calls`, `FMPS.postSelect_stale`, `FMPS.mixedCanonicalise_stale`, `FMPS.applyTwoSite_stale`

### C25 factors splits evenly — proved

*Claim.* factors(n) returns two integers with product n whose difference is minimal; for n = d*d it returns [d, d].

*Modelled.* `factors`

*Proof.* number theory

*Theorems.* `factors_even`, `factors_square`, `factors_not_recovered`

### C26 Hamiltonian terms sum to the full Hamiltonian — partial

*Claim.* Hamiltonian(strings).to_full(L) is the sum over bonds of the two-body terms plus the sum over sites of the one-body terms, each with the coefficient the user gave.

*Modelled.* `Hamiltonian.__init__`, `to_matrices`, `to_full`

*Proof.* sums of Kronecker products

*Result.* As written the property is false: Hamiltonian(strings).to_full(L) always raises AttributeError (toFull_strings). Proved for L>=3: to_matrices(L) fed back through Hamiltonian(matrices=..).to_full() is the sum of couplings over bonds and fields over sites, for every dictionary of fields and couplings whose non-zero coefficients exceed 2e-8. On two sites the fields are halved (toFull_two, toFull_two_wrong); coefficients below 1e-8 are dropped (toFull_small).

*Theorems.* `Ham.toFull_partial`, `Ham.toFull_matrices`, `Ham.toFull_strings`, `Ham.toFull_two`, `Ham.toFull_two_wrong`, `Ham.toFull_small`, `Ham.init_field`

### C27 the MPO is the Hamiltonian — partial

*Claim.* Contracting Hamiltonian(strings).to_mpo(L) gives the same matrix as to_full(L).

*Modelled.* `to_mpo`

*Proof.* transfer-matrix induction for the MPO

*Result.* The MPO contracted between boundary indices 0 and 4 is the Hamiltonian for every length and every Heisenberg-type dictionary; other dictionaries are refused. Agreement with to_full only for L>=3, through matrices= (to_full from strings raises; see C26).

*Theorems.* `Ham.toMpo_spec`, `Ham.toMpo_eq_toFull`, `Ham.toMpo_raises`

### C28 n_body places an operator at the named site — partial

*Claim.* n_body(op, i, n) is 1 x .. x op x .. x 1 with op at site i (1-based); operators at different sites commute; an out-of-range site raises.

*Modelled.* `tensor`, `n_body`

*Proof.* Kronecker products

*Result.* Placement, commutation and product proved for all op, n and 1<=i<=n; i>n raises. The claim that every out-of-range site raises is false: i<=0 returns the identity (nBody_low). With d given the chain has n+1 sites and i counts from 0 (nBody_d).

*Theorems.* `Spin.nBody_spec`, `Spin.nBody_high`, `Spin.nBody_low`, `Spin.nBody_commute`, `Spin.nBody_mul`, `Spin.nBody_d`

### C29 spin matrices obey the su(2) algebra — proved

*Claim.* spins(S) are Hermitian, [Sx,Sy] = i Sz and cyclic, and Sx^2+Sy^2+Sz^2 = S(S+1).

*Modelled.* `spins`, `ladders`, `paulis`

*Proof.* matrix algebra for every spin

*Result.* All spins n/2. Also: paulis ignores its argument; ladders returns [S-, S+] while its callers unpack sp, sm.

*Theorems.* `Spin.spins_hermitian`, `Spin.spins_comm`, `Spin.spins_casimir`, `Spin.paulis_eq`, `Spin.ladders_eq`, `Spin.ladders_order`

### C30 su(N) is an orthogonal Hermitian traceless basis — proved

*Claim.* su(N) lists N^2-1 Hermitian traceless matrices with Tr(ab) = 2 delta_ab, and every traceless matrix is the combination given by components.

*Modelled.* `su`, `components`

*Proof.* matrix algebra for every N

*Result.* All N; components is a two-sided inverse.

*Theorems.* `Spin.su_length`, `Spin.su_hermitian_traceless`, `Spin.su_norm`, `Spin.su_orthogonal`, `Spin.su_complete`, `Spin.su_components`

### C31 levi_civita is the sign of a permutation — proved

*Claim.* levi_civita(n)[i1..in] is the sign of the permutation, 0 if an index repeats.

*Modelled.* `levi_civita`, `perm_parity`

*Proof.* transposition count equals the sign

*Theorems.* `Spin.leviCivita_perm`, `Spin.leviCivita_repeat`, `Spin.leviCivita_swap`

### C32 Nsphere returns unit vectors — proved

*Claim.* Nsphere(v) has Euclidean norm 1.

*Modelled.* `Nsphere`

*Proof.* induction on the vector

*Result.* All lengths, including the empty vector.

*Theorems.* `Spin.nsphere_norm`

### C33 transfer matrices — partial

*Claim.* TransferMatrix and Map: asmatrix() applied to the vectorised matrix equals mv, mvr is the adjoint of mv.

*Modelled.* `Map`, `TransferMatrix`

*Proof.* index computation

*Result.* All of it holds for Map; TransferMatrix.mvr is the transpose, not the adjoint (mvr_not_adjoint).

*Theorems.* `TMap.asmatrix_ok`, `TMap.mv_spec`, `TMap.mvr_spec`, `TransferMatrix.asmatrix_ok`, `TransferMatrix.mv_spec`, `TransferMatrix.mvr_partial`, `TransferMatrix.mvr_transposed`, `TransferMatrix.mvr_not_adjoint`

### C34 cached blocks equal fresh ones — partial

*Claim.* For one id, F1(i, j) returns the same value whether or not earlier calls filled the cache.

*Modelled.* memo tables

*Proof.* string keys: injective up to 11 sites, collision beyond

*Result.* holds for chains of up to 11 sites; violated from 12 sites on (key collisions) and for christoffel (cached value lacks the change of basis).

*Theorems.* `Cache.run_fresh`, `Cache.run_collision`, `Cache.run_collision'`, `Cache.christoffel_cached`, `Cache.christoffel_collision`, `flipF1_flipF1`, `flipF2_flipF2`

### C35 trajectory history — partial

*Claim.* After any sequence of integrations, expansions, contractions and clears, mps_list() returns the states that were integrated, in order.

*Modelled.* `Trajectory` bookkeeping, `mps_list` after `edint`

*Proof.* state machine invariant

*Result.* holds without clear, and with clear when the bond dimension is constant; violated after clear otherwise; the step, canonicalisation and resize are parameters that keep / produce the standard bond structure.

*Theorems.* `Tdvp.mpsList_run`, `Tdvp.mpsList_run_clear`, `Tdvp.mpsList_clear_fails`, `Tdvp.mpsListEd_length`

### C36 rk4 is the classical fourth-order scheme — partial

*Claim.* One rk4 step of size h on a linear vector field A -> z A is multiplication by 1+hz+(hz)^2/2+(hz)^3/6+(hz)^4/24.

*Modelled.* `rk4`, `euler`

*Proof.* algebra of the stages for any vector field; remainder estimate for linear fields

*Result.* fTDVP.rk4: proved for every vector field; iTDVP.rk4: violated (rk4i_scalar, rk4i_wrong).

*Theorems.* `Tdvp.rk4_scheme`, `Tdvp.rk4_linear`, `Tdvp.rk4_scalar`, `Tdvp.rk4_order`, `Tdvp.rk4i_scheme`, `Tdvp.rk4i_scalar`, `Tdvp.rk4i_wrong`, `Tdvp.euler_scheme`

### C37 thermofield double from an MPS — proved

*Claim.* fTFD().from_fMPS(x) has amplitude x(s)x(t), is invariant under symmetry, symmetry is an involution.

*Modelled.* `fTFD.from_fMPS`, `symmetry`, `symmetrise`

*Proof.* induction on the chain

*Result.* symmetry needs extents that are squares (SquareChain), which from_fMPS establishes.

*Theorems.* `fromFMPS_amplitude`, `fromFMPS_symmetric`, `symmetry_exchanges`, `symmetry_involution`, `symmetrise_symmetric`

### C38 PEPS reflections — partial

*Claim.* T, R, U are involutions on a PEPS, keep neighbouring bonds matched and permute the amplitudes by the reflection.

*Modelled.* `fPEPS.__init__`, `T`, `R`, `U`

*Proof.* re-indexing of the bond sums over the grid

*Result.* Involution, matched bonds and permuted amplitudes proved for every grid; the recorded orthogonality centre follows its tensor only on square grids (R_centre, U_centre give the exact condition, R_centre_outside a grid where it leaves the grid).

*Theorems.* `FPEPS.T_reflection`, `FPEPS.R_reflection`, `FPEPS.U_reflection`, `FPEPS.pepsAmp_tT`, `FPEPS.pepsAmp_tR`, `FPEPS.pepsAmp_tU`, `FPEPS.R_centre`, `FPEPS.U_centre`, `FPEPS.R_centre_outside`

### C39 match_gauge_to keeps the state — proved

*Claim.* x.match_gauge_to(y) changes the state of x at most by a phase.

*Modelled.* `match_gauge_to`

*Proof.* the polar unitary is a gauge transformation

*Result.* Also shows that the overlap of matched tensors is positive semidefinite.

*Theorems.* `FMPS.matchGaugeTo_spec`, `polarLaw_exists`

### C40 copies are independent — proved

*Claim.* No operation on x.copy() changes the state of x, and apply does not change its receiver.

*Modelled.* arrays, lists and objects in a heap; the constructor, `__setitem__`, `right/left/mixed_orthogonalise`, `post_select`, `match_gauge_to`, `left/right_from_state`, `left/right_canonicalise`, `apply_two_site`, `copy`, `apply`, `mul`, `append`, `extend`

*Proof.* Hoare triples: an array is written in place only if it was made during the call; induction over the history; simulation of the models on values

*Result.* every history of calls from the empty heap, with exceptions caught; the canonicalisations are modelled as assignments of the final fresh arrays; fMPS(x.data) is not a copy: it shares the list (alias_changes).

*Theorems.* `call_frame`, `history_frame`, `reachable_separate`, `copies_independent`, `apply_new`, `orthogonalise_refines`, `applyTwoSite_refines`, `alias_changes`

### C41 transfer and environments — partial

*Claim.* left_transfer(op, j, i) maps an operator through sites j..i-1 and composes: through j..k equals through i..k then j..i; get_envs gives the left and right environments.

*Modelled.* `get_envs`, `left_transfer`, `right_transfer`

*Proof.* induction on the range of sites

*Result.* left_transfer: value and composition for every chain, every operator and any trailing axes. right_transfer is right only for real tensors and symmetric operators (indices are exchanged at every site: rightTransfer_swaps), its result is shifted by one position (rightTransfer_shift) and ret_all=False returns the input (rightTransferOne_eq). get_envs is right exactly as far as the environments are diagonal (getEnvs_diag_partial); off-diagonal entries are lost (getEnvs_loses).

*Theorems.* `FMPS.leftTransfer_spec`, `FMPS.leftTransfer_comp`, `FMPS.rightTransfer_real_partial`, `FMPS.rightTransfer_swaps`, `FMPS.rightTransfer_shift`, `FMPS.rightTransferOne_eq`, `FMPS.getEnvs_diag_partial`, `FMPS.getEnvs_loses`

### C42 MPO product is the matrix product — partial

*Claim.* (A*B).recombine() == A.recombine() @ B.recombine() for fMPO, and an MPO times an MPS is the matrix times the vector.

*Modelled.* `fMPO.__mul__`, `recombine`, `from_mps`, `transpose_ud`

*Proof.* induction on the chain, transfer network

*Result.* proved for every pair of MPOs with at least two sites (open or closed into a ring); false for one site, where recombine raises ValueError. recombine is the conjugate transpose, so an MPO times an MPS gives the matrix times the conjugated vector.

*Theorems.* `FMPO.mul_recombine`, `FMPO.mulMps_recombine`, `FMPO.mulMps_elem`, `FMPO.mul_elem`, `FMPO.recombine_ok`, `FMPO.fromMps_elem`, `FMPO.transposeUd_elem`, `FMPO.recombine_single`

### C43 symplectic matrices — proved

*Claim.* sympmat(n) squares to -1 and is orthogonal; changebasis(n) is a permutation matrix that turns sympmat(2n) into n blocks of [[0,1],[-1,0]].

*Modelled.* `sympmat`, `changebasis`

*Proof.* index computation

*Theorems.* `sympmat_sq`, `sympmat_transpose`, `sympmat_orthogonal`, `changebasis_perm`, `changebasis_sympmat`

### C44 unitary_extension extends — proved

*Claim.* unitary_extension(Q, D) is unitary and has Q as its upper left block.

*Modelled.* `unitary_extension`

*Proof.* null space complements the columns

*Result.* For every isometry and every D; when D is smaller than max(Q.shape) it is ignored.

*Theorems.* `unitaryExtension_spec`, `nullLaw_exists`

### C45 canonicality tests are sound — proved

*Claim.* is_left_canonical / is_right_canonical return True exactly when every tensor is an isometry on that side.

*Modelled.* `is_left_canonical`, `is_right_canonical`

*Proof.* unfolding `allclose`

*Result.* Exact meaning of the canonicality tests for all tolerances, and that canonicalised chains pass them.

*Theorems.* `isRightCanonical_iff`, `isLeftCanonical_iff`, `isRightCanonical_spec`, `isLeftCanonical_spec`, `FMPS.leftCanonicalise_passes`, `FMPS.rightCanonicalise_passes`

### C46 infinite MPS canonicalisation — partial

*Claim.* iMPS.canonicalise('r'/'l') returns a right/left canonical tensor that generates the same state up to gauge and normalisation.

*Modelled.* `iMPS.canonicalise`, `TransferMatrix.eigs`

*Proof.* matrix algebra with Cholesky factors of the fixed points

*Result.* canonicalise('r') and ('l') proved for every tensor with positive definite leading fixed points; 'm' leaves the eigenvalue tr(l^T r), refuted as a normalised form by a witness with eigenvalue 4/5. eigs_ok: the eigensolver may return any multiple whose phase is not purely imaginary. One tensor in the unit cell; that the leading eigenvalue is simple is not derived from injectivity.

*Theorems.* `IMPS.canonicalise_right`, `IMPS.canonicalise_left`, `IMPS.canonicalise_mixed`, `IMPS.mixed_not_normalised`, `IMPS.eigs_ok`, `cholLaw_exists`

### C47 the run directory number is fresh — partial

*Claim.* Trajectory.stop() writes to a directory that did not exist, and numbers runs consecutively.

*Modelled.* `Trajectory.stop`

*Proof.* sorting of directory names as strings

*Result.* new directory: always; consecutive numbering: the first ten runs in a directory without other entries of that prefix; violated beyond.

*Theorems.* `Tdvp.stopDir_fresh`, `Tdvp.stopDir_next`, `Tdvp.stops_ten`, `Tdvp.stops_eleven`, `Tdvp.stops_other`

### C48 TDVP tangent vectors are in the left gauge — partial

*Claim.* Every tensor B returned by dA_dt satisfies sum_s A_s^dagger l B_s = 0.

*Modelled.* `left_null_projector`, `dA_dt` (both branches)

*Proof.* the projector is orthogonal to the tensor weighted with its environment; refuted on |00>+|01>+|11> written with a non-canonical chain, where the diagonal of the environment is not the environment

*Result.* lists of two-site terms and matrices on the whole chain (fullH=True), on chains whose environments are diagonal and positive (get_envs returns only their diagonals otherwise); proved in particular after left_canonicalise(). Refuted for a chain whose environments are not diagonal (dAdt_not_gauge).

*Theorems.* `FMPS.dAdt_gauge`, `FMPS.dAdt_leftCanonicalise`, `projector_ok`, `FMPS.dAdtFull_gauge`, `FMPS.dAdtFull_leftCanonicalise`, `FMPS.dAdt_not_gauge`

### C49 tangent vector import and export round trip — partial

*Claim.* extract_tangent_vector(import_tangent_vector(v)) == v.

*Modelled.* `tangent_space_dims`, `extract_tangent_vector`, `import_tangent_vector`

*Proof.* the null vectors are an orthonormal basis of the gauge condition (count k + q = d p from a trace), so coordinates and tensors are inverse to each other site by site; different sites are orthogonal

*Result.* Holds for chains with diagonal positive environments whose sites without tangent vectors come first; violated otherwise: import_tangent_vector raises for |0>(|00>+|11>).

*Theorems.* `FMPS.extract_import`, `FMPS.import_extract`, `FMPS.extract_isometry`, `FMPS.import_isometry`, `FMPS.dAdt_extract`, `FMPS.tangentSpaceDims_spec`, `FMPS.import_raises`

### C50 vidal form round trip — proved

*Claim.* vfMPS().from_fMPS(x).to_fMPS() equals x when x is right canonical with invertible Schmidt matrices.

*Modelled.* `vfMPS.from_fMPS`, `to_fMPS`

*Proof.* inverse Schmidt matrices cancel

*Result.* invertibility is proved, not assumed (the rank reduction removes zero weights); the stored matrices hold the squared Schmidt coefficients.

*Theorems.* `VFMPS.roundTrip`

### C51 embed / deembed — proved

*Claim.* deembed(embed(v)) == v / norm(v) and embed(v) is unitary.

*Modelled.* `embed`, `deembed` on vectors

*Proof.* null space of a row

*Result.* null_space is a parameter with the contract NullRow.

*Theorems.* `Gates.embed_unitary`, `Gates.deembed_embed`, `Gates.nullRow_exists`

### C52 swap gates — partial

*Claim.* swap() is a self-inverse permutation gate, swap_symmetrise and swap_antisymmetrise project on the symmetric and antisymmetric operators.

*Modelled.* `swap`, `swap_symmetrise`, `swap_antisymmetrise`

*Proof.* matrix algebra

*Result.* swap_antisymmetrise violated.

*Theorems.* `Gates.swap_mul_swap`, `Gates.swap_kron`, `Gates.swapSymmetrise_symm`, `Gates.swapSymmetrise_eq_iff`, `Gates.swapSymmetrise_idem`, `Gates.isSwapSymmetric_iff`, `Gates.swapAntisymmetrise_wrong`

### C53 controlled gates — proved

*Claim.* CZ() and CNOT() act as Z and X on the second qubit when the first is 1 and are self-inverse; the angles of CRy add and CRy is orthogonal.

*Modelled.* `CZ`, `CNOT`, `CRy`

*Proof.* matrix algebra

*Theorems.* `Gates.CZ_CNOT_involutions`, `Gates.controlled`, `Gates.CZ_swap`, `Gates.CRy_group`

### C54 entanglement_entropy is the entropy of the Schmidt weights — proved

*Claim.* x.entanglement_entropy(site) is -sum p log p over the squared Schmidt coefficients p of the normalised state across the bond left of site; the call leaves the state of x unchanged up to a factor.

*Modelled.* `entanglement_entropy`

*Proof.* Schmidt weights from C16

*Result.* weights up to 1e-8 are left out by the code; contracts SVDLaw, EigOrthoLaw.

*Theorems.* `FMPS.entanglementEntropy_spec`, `Spec.SchmidtAt.perm`, `Spec.SchmidtAt.sum_norm`

### C55 energy is the expectation value per site — partial

*Claim.* After left_canonicalise() or right_canonicalise(), x.energy(H) for a list of two-site matrices is the sum of their normalised expectation values divided by the number of sites; without canonicalising first it is not.

*Modelled.* `energy`

*Proof.* environments of the canonical forms

*Result.* Proved for all chains after either canonicalisation, and for all chains with diagonal environments; for a chain that has not been canonicalised the value is wrong (energy_wrong). energy(H, fullH=True) is E_L (C14).

*Theorems.* `FMPS.energy_leftCanonicalise`, `FMPS.energy_rightCanonicalise`, `FMPS.energy_diag_partial`, `FMPS.energy_wrong`

### C56 environment, rank and trace tests mean what they say — partial

*Claim.* is_right_env_canonical(mats, sings) and is_left_env_canonical(mats, sings) are True exactly when every tensor carries each recorded environment to the next one within the tolerance of allclose; is_full_rank is True exactly when no diagonal entry vanishes, and has_trace_1 exactly when every trace is within 1e-8 of 1. The last tensor of the chain is in fact never checked.

*Modelled.* `tests.py`

*Proof.* unfolding

*Result.* The statement holds for all but the last tensor of the chain; isRightEnvCanonical_last and isLeftEnvCanonical_last show the last one is never checked.

*Theorems.* `isRightEnvCanonical_partial`, `isLeftEnvCanonical_partial`, `isRightEnvCanonical_last`, `isLeftEnvCanonical_last`, `isFullRank_spec`, `hasTrace1_spec`

### C57 embed puts a vector into a unitary — proved

*Claim.* embed(v) is unitary with v/norm(v) as its first column, and deembed(embed(v)) == v/norm(v) for a 2 by 2 matrix.

*Modelled.* `embed`, `deembed` on arrays

*Proof.* unitary extension

*Theorems.* `embed_spec`, `deembed_embed`

### C58 unique QR — proved

*Claim.* uqr(A) is the QR factorisation of A with positive diagonal, independent of the signs LAPACK chose, when the columns of A are independent; urq(A) multiplies back to A. When R has a zero on its diagonal uqr returns a first factor with a zero column, which is not an isometry.

*Modelled.* `uqr`, `urq`

*Proof.* uniqueness of triangular factors with positive diagonal

*Result.* numpy 1 sign; uqr_degenerate is the failure for rank deficient matrices.

*Theorems.* `uqr_unique`, `uqr_fact`, `uqr_degenerate`, `urq_fact`

### C59 one-site expectation values of thermofield doubles — proved

*Claim.* fTFD.E(op, site, lr) is the normalised expectation value of op (transposed) on the chosen copy; on fTFD().from_fMPS(x) both copies give what x.E(op, site) gives.

*Modelled.* `fTFD.E`, `Es`

*Proof.* isometry collapse on the doubled index

*Result.* the matrix acts transposed, as in fMPS.E.

*Theorems.* `TFD.E_spec`, `TFD.Es_spec`, `TFD.E_double`

### C60 overlap, norm and expectation values of PEPS — partial

*Claim.* x.overlap(y) is the 1 by 1 matrix holding <x|y>, summed over all basis states; x.norm() holds the square root of the sum of squared moduli; x.apply(op, (i, j)) acts with op on column i, row j; x.E(op, site) is the real part of <x|op|x>; x.normalise() divides the amplitudes by the norm. A grid with a single column raises ValueError.

*Modelled.* `fPEPS.overlap`, `norm`, `apply`, `E`, `normalise`, `col_mpos`

*Proof.* column transfer matrices; induction over columns and rows

*Result.* overlap, norm, apply, E and normalise for every open grid with at least two columns; with one column overlap raises ValueError (overlap_single_column), so the claim fails there.

*Theorems.* `FPEPS.overlap_eq`, `FPEPS.overlap_conj`, `FPEPS.norm_eq`, `FPEPS.apply_eq`, `FPEPS.expval_eq`, `FPEPS.normalise_norm`, `FPEPS.normalise_product`, `FPEPS.overlap_single_column`

### C61 expectation values of an infinite MPS — partial

*Claim.* iMPS.E(op) is the expectation value of op per site of the infinite chain, and E(op, c) after canonicalise(c) gives the same number.

*Modelled.* `iMPS.E`

*Proof.* trace identities with the fixed points

*Result.* E(op) proved correct. E(op, 'r'/'l') gives the value of the transpose, 'm' that times tr(l^T r); witness E(Y)=1, E(Y,'r')=-1. real_if_close left out.

*Theorems.* `IMPS.E_vidal`, `IMPS.E_right`, `IMPS.E_left`, `IMPS.E_mixed`, `IMPS.E_transposed`, `IMPS.infExpect_identity`, `IMPS.infExpect_scale`

### C62 energy of an infinite MPS — partial

*Claim.* iMPS.energy([h]) is the expectation value of the two-site operator h on neighbouring sites of the normalised infinite state.

*Modelled.* `iMPS.energy`

*Proof.* trace identities; 2 by 2 witness

*Result.* energy_eq gives the value for every tensor: the fixed point r enters transposed. Right when r is symmetric (energy_ok_partial), refuted otherwise: 1/17 for 1/2 (energy_wrong).

*Theorems.* `IMPS.energy_eq`, `IMPS.energy_ok_partial`, `IMPS.energy_wrong`

### C63 mixed canonical form of an infinite MPS — proved

*Claim.* When iMPS.mixed() ends it returns AL, AR, C with AL a left isometry, AR a right isometry, AL C = C AR up to the tolerance, and AL gauge equivalent to the tensor up to the tolerance; before it ends it raises nothing.

*Modelled.* `_lmixed`, `_rmixed`, `mixed`

*Proof.* loop invariant, partial correctness

*Result.* partial correctness for any number of rounds, with the invariant that the iterates stay invertible; that the iteration converges is not shown beyond lmixed_fixed.

*Theorems.* `IMPS.mixed_spec`, `IMPS.lmixed_spec`, `IMPS.rmixed_spec`, `IMPS.lmixed_fixed`, `Spec.FixedPoints.injective`, `rqUpper_exists`

### C64 dA_dt is the TDVP tangent vector — proved

*Claim.* For a chain with diagonal positive environments (for instance after left_canonicalise()) dA_dt(H) returns the tangent vector of the time-dependent variational principle: it is orthogonal to the state, it is the orthogonal projection of -iHψ on the tangent vectors in the left gauge and therefore the closest of them, and along it the energy does not change to first order.

*Modelled.* `get_envs`, `left_null_projector`, `dA_dt` (both branches)

*Proof.* each term of the loop is the contraction of the projected derivative with the environments of H; orthogonality to the state makes different sites orthogonal; with `fullH` the network of all sites is evaluated with a broken chain of conjugated tensors (`nc_broken`); every tangent vector is one in the left gauge plus a multiple of the state (`gauge_fix`), hence the result is the closest to `-i(H-⟨H⟩)ψ` among all tangent vectors (`dAdt_best_all`) and equal to it exactly when `Hψ` is tangent (`dAdt_exact`); along `x + c t dA_dt(H)` the state has the derivative `c` times the tangent vector (`dAdt_line`, induction over the sites), the norm is stationary and the energy has the derivative `2 Im c ‖T‖²/(‖ψ‖² L)` (`dAdt_line_energy`)

*Result.* contracts: Cholesky (triangular), exact inverse, null_space, SVD, eig; both branches of dA_dt.

*Theorems.* `FMPS.dAdt_tdvp`, `FMPS.dAdt_norm`, `FMPS.dAdt_project`, `FMPS.dAdt_best`, `FMPS.dAdt_project_all`, `FMPS.dAdt_best_all`, `FMPS.dAdt_exact`, `FMPS.dAdt_energy`, `FMPS.fullEnvs_leftCanonicalise`, `FMPS.dAdt_leftCanonicalise`, `FMPS.dAdtFull_tdvp`, `FMPS.dAdtFull_norm`, `FMPS.dAdtFull_project`, `FMPS.dAdtFull_best`, `FMPS.dAdtFull_energy`, `FMPS.dAdtFull_leftCanonicalise`, `FMPS.dAdt_line`, `FMPS.dAdt_line_energy`

### C65 tangent states — partial

*Claim.* tangent_state(X, n) is the state with the tangent tensor inv(ch(l)) vL X inv(ch(r)) in place of the tensor n; the tangent tensor is in the left gauge and the inner product of two tangent states at a site is the inner product of their X.

*Modelled.* `tangent_state`

*Proof.* the two changed tensors carry the factor of the one tangent tensor; Parseval at the site

*Result.* Proved when vL is passed; violated for the default vL=None, which raises for every site.

*Theorems.* `FMPS.tangentState_spec`, `FMPS.tangentState_raises`

### C66 tangent space bases — proved

*Claim.* tangent_space_basis('eye') is the identity matrix whose size is the dimension of the tangent space, sum over the sites of (d p - q) q; tangent_space_basis('rand') has orthonormal rows of the same number and length.

*Modelled.* `tangent_space_basis('eye'/'rand')`, `direct_sum`

*Proof.* induction over the blocks

*Theorems.* `FMPS.tangentSpaceBasis_eye`, `FMPS.tangentSpaceBasis_ortho`

### C67 parametrised unitaries are special unitary and reach every unitary — proved

*Claim.* SU(v, N), SU4, SU8, U4 and U4s return, for every real coordinate vector of the right length, a unitary matrix of determinant one; any other length raises ValueError.  U4s(v) commutes with the exchange of the two sites.  Conversely every unitary is SU(v, N) up to a phase, and every exchange-symmetric two-site unitary is U4s(v) up to a phase.

*Modelled.* `SU`, `SU4`, `SU8`, `U4`, `U4s`; `expm` is the exponential of Mathlib

*Proof.* spectral theorem for the determinant; a logarithm from the continuous functional calculus for the converse

*Result.* U1 and U2 subscript the function locals and always raise TypeError.

*Theorems.* `Spin.expGen_special`, `Spin.expGen_length`, `Spin.SU_special`, `Spin.SU4_special`, `Spin.SU8_special`, `Spin.U4_special`, `Spin.U4s_special`, `Spin.SU_surjective`, `Spin.U4s_surjective`

### C68 lambdas and slambdas are bases — proved

*Claim.* lambdas() is a trace-orthogonal basis (squared norm 2) of the traceless Hermitian 4 x 4 matrices.  slambdas() is a basis of those that commute with the exchange of the two sites (the docstring's 'should prove this!'), and its span is closed under commutators.

*Modelled.* `lambdas`, `slambdas`

*Proof.* trace-orthogonality gives uniqueness; entries give completeness

*Theorems.* `Spin.lambdas_hermitian_traceless`, `Spin.lambdas_norm`, `Spin.lambdas_orthogonal`, `Spin.lambdas_basis`, `Spin.slambdas_hermitian_traceless`, `Spin.slambdas_swap`, `Spin.slambdas_basis`, `Spin.slambdas_closed`

### C69 antiferro and ferro are spinors — partial

*Claim.* antiferro() and ferro() return three Hermitian matrices that satisfy the commutation relations of the Pauli matrices (the test pCR).

*Modelled.* `antiferro`, `ferro`

*Proof.* numbers; violated for `ferro`

*Result.* violated for ferro: its third component is half of what the relations require.

*Theorems.* `Spin.antiferro_pauli`, `Spin.ferro_not_pauli`, `Spin.ferro_partial`

### C70 insu2N adds an idle qubit — proved

*Claim.* insu2N(v, where) returns the coordinates in su(2n) of the generator with coordinates v in su(n), acting as the identity on a qubit added on the left, on the right, or before the last one; so SU(insu2N(v, where), 2n), and SU(v, n, '2N') for the default place, is SU(v, n) with an idle qubit.  The default place needs n to be a power of two; otherwise ValueError.

*Modelled.* `insu2N`, `SU(..., "2N")`

*Proof.* adding an idle qubit is a continuous algebra homomorphism, so it commutes with the exponential; coordinates by C30

*Theorems.* `Spin.insu2N_spec`, `Spin.SU_insu2N`, `Spin.SU2N_spec`, `Spin.insu2N_length`, `Spin.insu2N_mid_raises`

### C71 coordinates can be recovered from a unitary up to a phase — partial

*Claim.* extractv(U) returns n^2 - 1 real coordinates whose unitary is U up to a phase; to_new_v(v) returns coordinates of the same unitary up to an n-th root of one.  equal_up_to_phase(U, V) holds exactly if U and V differ by a phase.

*Modelled.* `extractv`, `to_new_v`, `equal_up_to_phase`; `logm` is a parameter

*Proof.* C30 and the exponential of a matrix plus a multiple of one

*Result.* equal_up_to_phase is violated when the top left entry is zero; the rest holds.

*Theorems.* `Spin.extractv_spec`, `Spin.toNewV_spec`, `Spin.equalUpToPhase_sound`, `Spin.equalUpToPhase_iff_partial`, `Spin.equalUpToPhase_misses`, `Spin.logLaw_exists`

### C72 Exact evolution is the Schroedinger evolution and conserves norm and energy — proved

*Claim.* edint(T) stores in ed_history, one entry per entry of T, the exact solution exp(-i H k dt) psi_0 of the Schroedinger equation for H = sum of the two-site terms (or the full matrix), where dt = T[1]-T[0]; for equally spaced T entry k is the state at T[k]. For Hermitian terms the norm of every entry and the value returned by ed_energies() never change, the latter being L times energy(H) of the canonicalised initial state. The mps left behind is a normalised left-canonical chain in the state of the last entry.

*Modelled.* `edint` (both branches), `ed_evs`, `ed_energies`; `expm_multiply` exact

*Proof.* Kronecker sums turn the matrix into Σ of embedded two-site terms; the exponential of a skew-Hermitian matrix is unitary and commutes with H; derivative of the exponential for the Schrödinger equation; C01/C02 for the chain left behind

*Result.* scipy expm_multiply is the exact exponential; for unequally spaced times the entries are not the states at T[k] (edint_uneven).

*Theorems.* `Tdvp.evolve_zero`, `Tdvp.evolve_schroedinger`, `Tdvp.edint_terms`, `Tdvp.edint_full`, `Tdvp.edint_times`, `Tdvp.edint_conserves`, `Tdvp.edEnergy_eq_energy`, `Tdvp.matrix_eq_toFull`, `Tdvp.edint_short`, `Tdvp.edint_noterms`, `Tdvp.edint_uneven`

### C73 The exact out-of-time-order correlator is a squared norm — proved

*Claim.* For Hermitian H, V, W every value returned by ed_OTOC(T, (V, W)) is the squared norm of [W(t), V] psi with W(t) the operator in the Heisenberg picture; it is never negative and vanishes at t = 0 when V and W commute.

*Modelled.* `ed_OTOC`, `comm`

*Proof.* ⟨ψ|[W(t),V]†[W(t),V]|ψ⟩ is rewritten as a sum of squared moduli

*Result.* only for fullH=True, which the code asserts; T must have two entries although dt is unused.

*Theorems.* `Tdvp.edOtoc_spec`, `Tdvp.edOtoc_nonneg`, `Tdvp.edOtoc_refuses`

### C74 Infinite states survive serialisation and files — partial

*Claim.* For every unit cell of tensors of shape (d, D, D), deserialize(serialize(), d, D, period) returns equal tensors and attributes, also with real=True; after store(f), load(f) returns the stored cell and no other file changes.

*Modelled.* `iMPS.__init__`, `serialize`, `deserialize`, `store`, `load` on unit cells; file names as `np.save` treats them

*Proof.* induction over the tensors of the cell

*Result.* holds for names that end in .npy; with any other name load does not find the file (np.save appends .npy).

*Theorems.* `Cell.init_good`, `Cell.deserialize_serialize`, `Cell.deserializeReal_serializeReal`, `Cell.load_store`, `Cell.store_other`, `Cell.load_store_fails`

### C75 The overlap of infinite states lies in [0, 1] and is 1 only for equal states — partial

*Claim.* x.overlap(y) returns a number between 0 and 1; it is 1 exactly when the tensors of x and y are related by an invertible change of basis of the bond and a factor, i.e. generate the same infinite state. Afterwards both are in left canonical form and represent the same states as before.

*Modelled.* `Map.left_fixed_point`, `iMPS.overlap`; the eigensolver by `LeadingLaw`, `0/0` as `none`

*Proof.* `Σ_s tr(X_s†X_s r) = (1-|η|²) tr(l†l r)` for `X_s = l B_s - η A_s l` and the positive right fixed point `r` of the canonical form; equality forces `l B_s = η A_s l`, then simplicity makes `l†l` a multiple of 1

*Result.* proved whenever the value is not nan, D > 1; left_fixed_point divides by the phase of the first entry of the eigenvector, which is 0/0 for some left isometries (leftFixedPoint_nan).

*Theorems.* `IMPS.overlap_spec`, `TMap.leftFixedPoint_ok`, `IMPS.leftFixedPoint_nan`, `leadingLaw_exists`

### C76 Calling a state indexes its tensors from one — partial

*Claim.* x(k) returns the k-th tensor, counted from 1 (docstring), for fMPS and iMPS.

*Modelled.* `fMPS.__call__`, `iMPS.__call__`

*Proof.* refuted for every chain

*Result.* the code returns x[k+1]: refuted for every chain, with the exact behaviour.

*Theorems.* `FMPS.call_shifted`, `Cell.call_shifted`

### C77 The example states are those of their docstrings — partial

*Claim.* bell(i), comp_z(i), comp_x(i) for i = 1..4 return normalised two-site states whose amplitudes are, up to one factor, those of the docstring; bell and comp_x are left canonical, and different states of a family are orthogonal.

*Modelled.* `bell`, `comp_z`, `comp_x`, `i_comp_z`, on top of the models of `pad`, `fMPS(data, d)` and `left_canonicalise`

*Proof.* amplitudes computed, then `leftCanonicalise_spec`; `compX_doc` has the exact set of `i` for which the docstring holds

*Result.* holds for bell and comp_z; the docstring of comp_x has 2 and 3 exchanged, and the states returned are orthogonal to the documented ones.

*Theorems.* `Examples.bell_spec`, `Examples.bell_none`, `Examples.bell_orthogonal`, `Examples.compZ_spec`, `Examples.compX_spec`, `Examples.compX_doc`, `Examples.iCompZ_spec`

### C78 AKLT() is the ground state of the AKLT Hamiltonian — partial

*Claim.* In the infinite state returned by AKLT() two neighbouring spins are never in a state of total spin two: the expectation value of the projector vanishes.

*Modelled.* `AKLT`, with the models of `spins`, `ladders` and `iMPS(data)`

*Proof.* refuted: fixed points and the expectation value of the projector on total spin two computed for all tensors of this form (`tri_energy`); the projector is specified by its five vectors, shown to be the multiplet of spin two

*Result.* refuted: the factor of the middle matrix is sqrt(1/8) instead of sqrt(1/3), and the expectation value is 50/1083.

*Theorems.* `Examples.aklt_wrong`, `Examples.tri_energy`, `Examples.tri_ground`, `Examples.quintet_m`, `Examples.quintet_top`, `Examples.quintet_lower`

### C79 iMPS.Lh sums the Hamiltonian terms on the left — partial

*Claim.* For a normalised infinite MPS, Lh([h]) returns the sum over all n of the two-site term h placed n sites to the left, closed with l and carried to the right by the transfer matrix, each term with its expectation value times l subtracted.

*Modelled.* `Lh` with `scipy.optimize.root` as a parameter

*Proof.* the equation of the code is a linear map of matrices, injective because the leading eigenvalue is simple, so the root exists and is unique (`Lh_ok`); with a real transfer matrix the map is the transfer matrix, and the equation is iterated; counterexample with the tensor `(1+iX)/2, (i-Z)/2` and `h = 1⊗X`

*Result.* Refuted for complex tensors (Lh_not_sum). Lh_ok: what is returned in general. Lh_series_partial: the claim if the transfer matrix is real and r symmetric.

*Theorems.* `IMPS.Lh_ok`, `IMPS.Lh_series_partial`, `IMPS.Lh_not_sum`

### C80 iMPS.dA_dt is the tangent vector of the time-dependent variational principle — partial

*Claim.* dA_dt([h]) returns the tensor B in the left gauge for which the scalar product of the tangent vector with every variation B' in the left gauge is -i<dpsi(B')|H|psi>, H being the sum of h over all bonds of the infinite chain.

*Modelled.* `Lh`, `left_null_projector`, `dA_dt`

*Proof.* the projector removes nothing from the scalar product with a variation in the left gauge; the terms of the window right of the variation vanish by the gauge, those at the variation are the two explicit terms, those left of it are the iterated equation of `Lh`; limit by mixing; uniqueness since the form is positive definite; counterexample: cluster state with a phase, `h = Z⊗Y`

*Result.* Refuted for complex tensors (dAdt_not_tdvp), because Lh is wrong there. The claim, with uniqueness, for real transfer matrix and diagonal fixed points; exact equation for every window length.

*Theorems.* `IMPS.dAdt_window_partial`, `IMPS.dAdt_tdvp_partial`, `IMPS.tangent_energy`, `IMPS.dAdt_not_tdvp`

### C81 iMPS.Rh sums the Hamiltonian terms on the right — partial

*Claim.* For a normalised infinite MPS, Rh([h]) returns (with the bra index first) the sum over all n of the two-site term h placed n sites to the right, closed with r and carried to the left by the transfer matrix, each term with its expectation value times r subtracted, as its docstring draws.

*Modelled.* `Rh` with `scipy.optimize.root` as a parameter

*Proof.* the equation is a linear map; it is injective because its adjoint is, by simplicity of the leading eigenvalue; series by iteration; counterexample: cluster state and `h = Z⊗1`

*Result.* Refuted (Rh_not_sum): r occurs twice in the right-hand side. Rh_ok: what is returned in general. Rh_series_partial: for a right canonical tensor with r = c*1 it is c times the sum.

*Theorems.* `IMPS.Rh_ok`, `IMPS.Rh_series_partial`, `IMPS.Rh_not_sum`

### C82 ivMPS.canonicalise brings the pair (G, L) to Vidal form without changing the state — proved

*Claim.* For an ivMPS with one pair (G, L) whose transfer matrix has a simple leading eigenvalue eta with positive definite fixed points, canonicalise() returns a pair in Vidal canonical form: L is diagonal with positive, decreasing entries and unit norm, and both G L and L G are isometries. The tensor of to_iMPS() afterwards is a gauge transform of the one before, divided by sqrt(eta).

*Modelled.* `ivMPS.canonicalise`, `to_iMPS`, `r_eigenmatrix`, `l_eigenmatrix` with one pair in the unit cell; eigensolver, Cholesky, SVD and inverse are parameters

*Proof.* the code computes the fixed points of `L G` and `G L`; those of `L G` follow from those of `G L` because `L` is invertible; the rest is the argument of `iMPS.canonicalise` (`vidal_of_data`), and that the eigenvalue is simple from the right follows from the left (`simpleRight_of_left`)

*Result.* One pair in the unit cell; eigensolver as in ArnLaw, which excludes an eigenvector with purely imaginary first entry.

*Theorems.* `IvMPS.canonicalise_spec`, `IvMPS.canonicalise_ok`, `simpleRight_of_left`

### C83 ivMPS.E(op) is the expectation value of op — partial

*Claim.* After canonicalise(), E(op) of an ivMPS is the expectation value per site of the operator op in the infinite state.

*Modelled.* `ivMPS.E`

*Proof.* the contraction is evaluated to a sum of traces and compared with the expectation value by `pair_expect`; the counterexample is a state with `D = 2` and `op = Y`

*Result.* The code measures the transpose of op: E_transpose for all op, E_symmetric_partial for symmetric op, E_not_expectation the counterexample Y.

*Theorems.* `IvMPS.E_symmetric_partial`, `IvMPS.E_transpose`, `IvMPS.E_not_expectation`

### C84 fPEPS.add adds states — partial

*Claim.* For two PEPS on the same grid with open boundaries, x.add(y) is a PEPS whose amplitude on every basis state is the sum of the amplitudes of x and y.

*Modelled.* `add` with its nine cases of padding, the constructor

*Proof.* amplitudes of block tensors split (`amp_blocks`): a choice of bond values that mixes the two blocks meets a zero entry, because the inner bonds connect all sites; `add_not_peps` evaluates a 2 x 3 grid

*Result.* proved when Lx and Ly of x are the numbers of columns and rows, both at least two; refuted for a 2 x 3 grid made by the constructor, which counts Lx as the number of rows; single rows and columns raise AssertionError.

*Theorems.* `FPEPS.add_eq_partial`, `FPEPS.add_not_peps`, `FPEPS.add_raises`

### C85 recombine lists the amplitudes of a PEPS — partial

*Claim.* x.recombine() is the vector of all amplitudes in reading order, x.recombine('row_snake') the same vector with every second row read from right to left, and x.full_overlap(y) is the inner product, in agreement with x.overlap(y).

*Modelled.* `row_contract`, `col_contract` (functions), `recombine` with both orders, `full_overlap`

*Proof.* both joins are instances of one relation `Joins`; `joins_reduce` (induction on the length) expresses a joined line as a sum over the inner bonds, merged indices run over all bond values (`sum_merged`)

*Result.* recombine() and full_overlap proved for all grids; recombine('row_snake') proved when at most one bond between any two rows is not trivial, and refuted otherwise: it joins mirror-image columns.

*Theorems.* `FPEPS.recombine_eq`, `FPEPS.fullOverlap_eq`, `FPEPS.fullOverlap_overlap`, `FPEPS.recombineSnake_eq_partial`, `FPEPS.recombineSnake_twist`, `FPEPS.recombineSnake_wrong`

### C87 from_mps winds a chain through a grid — partial

*Claim.* fPEPS().from_mps(mps, Lx) is a PEPS with open boundaries whose amplitudes along the snake are the amplitudes of the chain; recombine('row_snake') gives the state vector of the chain back; a chain that does not fit the grid raises.

*Modelled.* `from_mps` with `Lx`, without, and with both numbers

*Proof.* entries of the reshaped tensors by position and direction (`snakeTensor_ok`), rows are pieces of the chain (`snake_row`), pieces compose (`amp_blocks_path`)

*Result.* proved for two columns or more and chains that fill the grid; a single column gives a state of the wrong size, and with Lx given the tensors of an incomplete row are dropped without an error.

*Theorems.* `FPEPS.fromMps_eq`, `FPEPS.fromMps_recombine`, `FPEPS.fromMpsSq_eq`, `FPEPS.fromMpsLx_drops`, `FPEPS.fromMps_column`

### C86 E_k is the expectation value of an operator on a block — partial

*Claim.* x.contract(((x0, y0), (width, height))) is the same state with the sites of the block merged into one site, and x.E_k(op, ((x0, y0), (width, height))) is the real part of the expectation value of op on the block, op being specified in reading order.

*Modelled.* `row_contract`, `col_contract` (methods), `contract`, `E_k`

*Proof.* the amplitude is a walk through the rows (`pepsAmp_walk`), consecutive steps of a walk are one step (`walk_merge`), and a joined block of rows is the product of its rows (`rowKern_merged`); columns by transposition; merged configurations correspond to configurations (`sum_blockS`)

*Result.* contract proved for all blocks; E_k proved for blocks narrower than the grid with the operator specified column by column, which is reading order for a single row or column; refuted in reading order for two by two sites; a block as wide as the grid raises ValueError.

*Theorems.* `FPEPS.rowContract_ok`, `FPEPS.colContract_ok`, `FPEPS.contract_ok`, `FPEPS.expK_eq`, `FPEPS.expK_reading_partial`, `FPEPS.expK_not_reading`, `FPEPS.expK_full_width`

### C88 rho and rho_proj of a product PEPS — partial

*Claim.* For a PEPS with bond dimension 1 and normalised tensors, x.rho(((x0, y0), (width, height))) holds at [i, j] the reduced density matrix of the site in column x0+i and row y0+j, and E(op, site) is the real part of the trace of op with it; x.rho_proj(y, sites) holds the partial traces of |x><y|.

*Modelled.* `rho`, `rho_proj`, `bond_dimension`

*Proof.* the amplitude of a product state is a product over sites, so the partial trace factorises (`siteRed_product`); a change of summation variable turns the value of `E` into a trace (`sum_swap`)

*Result.* rho proved, and E as a trace; rho_proj gives the outer products of the tensors, which differ from the partial trace by the overlaps of all other sites (siteRed_product), refuted by two sites.

*Theorems.* `FPEPS.rhoProj_ok`, `FPEPS.siteRed_product`, `FPEPS.rho_eq`, `FPEPS.rho_expval`, `FPEPS.expval_red`, `FPEPS.rhoProj_wrong`

### C89 F2 is the matrix element of H between the state and its second tangent vectors — partial

*Claim.* For a list H of two-site terms F2(i, j, H), contracted with the conjugated coordinates of two tangent tensors in the left gauge, as extract_tangent_vector computes them, is <d_i d_j psi|H|psi>: the matrix element of the sum of the terms between the state with both tensors replaced and the state itself. F2(i, i, H) is zero.

*Modelled.* `F2` (list of two-site terms, `testing=False`, cache empty), `inv_envs`

*Proof.* the blocks of transferred tensors are identified with partial sums of amplitudes (`mixR`); terms right of the first site vanish by the left gauge; each remaining branch of the loop is one local sum (`F2Ctx.term`), and both tangent tensors are linear in their coordinates (`pairing_set_linear`)

*Result.* proved for normalised states (f2_normalised); for other states F2(0, j) carries a factor of the norm, because ch_l(-1) reads the last environment (f2_extract gives the exact factor, exScaled_wrong a witness); list of two-site terms only.

*Theorems.* `FMPS.f2_spec`, `FMPS.f2_extract`, `FMPS.f2_normalised`, `FMPS.f2_same`, `exScaled_wrong`

### C90 F1 is the matrix element of H between tangent vectors — partial

*Claim.* For a list H of two-site terms F1(i, j, H), contracted with the conjugated coordinates of a tangent tensor at i and the coordinates of a tangent tensor at j, both in the left gauge and as extract_tangent_vector computes them, is <d_i psi|H|d_j psi>: the matrix element of the sum of the terms between the state with the tensor at i replaced and the state with the tensor at j replaced.

*Modelled.* `F1` (list of two-site terms, `testing=False`, cache empty)

*Proof.* as for C89; the ket is varied as well (`mixR_lastK`, `pairing_ket_linear`), the terms right of the first site vanish by the left gauge of the bra (`F2Ctx.vanish_ket`); the entries are found exactly, with the transposed terms (`f1Mat`) and the exchanged bond (`f1Gap`), and the two deviations are refuted on concrete states

*Result.* false as stated: complex Hermitian terms enter transposed (exTwist_wrong), for sites further apart ket and bra bond are exchanged (exGap_wrong), local dimensions other than two raise (f1_dim). Proved for different sites, real symmetric terms and neighbouring sites or a trivial bond (f1_real_partial, with the factor of the norm at the first site); i = j is not treated.

*Theorems.* `FMPS.f1_lt`, `FMPS.f1_real_partial`, `FMPS.f1_dim`, `exTwist_wrong`, `exGap_wrong`

### C91 christoffel holds the overlaps of second tangent vectors with tangent vectors — partial

*Claim.* christoffel(i, j, k), contracted with the weighted tensors l(i-1)@conj(U)@r(i), l(j-1)@conj(W)@r(j) and l(k-1)@C@r(k) of left-gauge tangent tensors, is minus the overlap of the state with U, W in place of the tensors i and j with the state with C in place of tensor k, zero for i = j, in either order of i and j. With the third tensor given (closed=(None, None, l@C@r)) the result contracted with the conjugated coordinates of U and W, as extract_tangent_vector computes them, is the same number, whatever calls were made on the object before.

*Modelled.* `christoffel` without tensors and with one for the third site, `ungauge`, the lists `dA_dt` leaves in `dA_cache`

*Proof.* the projectors of `left_null_projector` fix weighted left-gauge tensors (`PrFix`), the transfer of the second projector is the mixed right environment (`F2Ctx.chRs`), the left gauge leaves only `k = min(i, j)` (`F2Ctx.chVanish`); the change to coordinates turns the contraction into unit tangent tensors, linearity gives all others (`F2Ctx.coords`)

*Result.* both forms proved for every state with full-rank environments, the closed one if dA_cache is unset or was written for the same tensors; false after the tensors changed, since the lists left in dA_cache by dA_dt are used without a check (exQ_stale: -2 for -1). closed with tensors for the first two sites is not modelled.

*Theorems.* `FMPS.christoffel_spec`, `FMPS.christoffel_closed`, `exQ_closed`, `exQ_stale`

### C92 jac: the projection part of the linearised equation of motion, and its real form — partial

*Claim.* For a normalised state jac(H, real_matrix=False) returns three square matrices J1, J2, G2 of the dimension of the tangent space; J2 + G2, contracted with the conjugated coordinates of two tangent vectors (as extract_tangent_vector computes them), is minus the sum over pairs of different sites of the matrix elements of d_t psi + iH psi with the second tangent vectors, d_t psi being the evolution of dA_dt; it is zero where the evolution stays in the tangent space up to norm and phase. jac(H) is the real matrix of u -> J1 u + (J2 + G2) conj(u) on real parts followed by imaginary parts.

*Modelled.* `jac` with `as_matrix=True`, for both values of `real_matrix`, with `inv_diag`, `ch_diag`, the slices `ind`, block assignment with broadcasting, `reshape(n, -1)`

*Proof.* the blocks succeed and have the shapes of the coordinates (`jac_pre`, `F2Ctx.f1diag` for the diagonal of `F1`), the loops write disjoint blocks (`jacFold_ok`), the form on coordinate lists is the sum over blocks (`blocks_form`), each block of `F2` and `christoffel` is a matrix element (C89, C91); the left gauge removes the other sites of the evolution; one site without coordinates at the wrong place makes one reshape fail (`jacFill_gap`)

*Result.* proved if the sites without coordinates come first; otherwise jac raises ValueError (jac_gap, exGap_jac). Local dimension two (F1 raises for others). Without the attribute old_vL (set by lyapunov), as_matrix=True; that calls sharing an id compute the same tensors is C34.

*Theorems.* `FMPS.jac_projection`, `FMPS.jac_exact`, `FMPS.jac_real`, `FMPS.jac_gap`, `exFlip_exact`, `FMPS.exGap_jac`

### C93 jac is Hamiltonian for Hermitian terms — proved

*Claim.* For Hermitian two-site terms the matrix jac(H) is real and Hamiltonian: the flow u -> J u of real and imaginary parts of the coordinates preserves the standard symplectic form, so the linearised evolution is one of a classical Hamiltonian system. In complex form J1 is anti-Hermitian and J2 + G2 is symmetric (the latter for any terms). This holds for every state, normalised or not, also where entries of J1 are wrong (C90).

*Modelled.* as C92

*Proof.* `F1(i, i)` is Hermitian term by term: the contraction of each branch is written as a sum and its summation indices are exchanged in pairs (`f1Term_self`, `f1Term_before`, `f1Term_left`, `f1After_ok`, invariants of the transfer lists); `F1(j, i)` is the conjugated transpose by construction (`F2Ctx.f1herm`); the blocks of `F2` and `christoffel` are symmetric forms evaluated on unit coordinates (`F2Ctx.form_entry`); the four real blocks then satisfy the Hamiltonian relations

*Result.* hypotheses on the state as for C92 (otherwise jac raises, FMPS.jac_gap).

*Theorems.* `FMPS.jac_hamiltonian`, `FMPS.jac_parts_sym`

### C94 the eigenvalues of jac come in pairs and its trace is zero — proved

*Claim.* For Hermitian two-site terms the trace of jac(H) is zero (the linearised flow preserves volumes) and with every eigenvalue z also -z is an eigenvalue: the instantaneous exponents come in pairs of opposite sign, as the computation of Lyapunov exponents expects.

*Modelled.* as C92

*Proof.* the symplectic form is non-degenerate: an eigenvector of the transpose for `z` (determinant zero) gives one of `J` for `-z` (`symp_spectrum`); unit vectors give the trace (`symp_trace`)

*Result.* from C93.

*Theorems.* `FMPS.jac_spectrum`

### C95 jac along a trajectory: null vectors carried over, matrix still Hamiltonian — proved

*Claim.* For a state with old_vL (as lyapunov and ts_int set it) jac(H) turns the null vectors of each site towards the old ones: new_vL is again an orthonormal basis of the null space of each site, its overlaps with old_vL form a positive semidefinite matrix, and for Hermitian terms the returned matrix is real and Hamiltonian. Without old_vL the result is that of C92.

*Modelled.* `fixNull`, `FMPS.fixNulls`, `FMPS.jacFixed` (`fMPS.py:1277-1292`), on top of the model of C92

*Proof.* a unitary turns an orthonormal null basis into one (`NullBasis.rotate`); the polar factor makes the overlap positive (`fixNull_ok`); the proofs of C92, C93 are written for any null basis (`F2Ctx.jacBlocks`, `F2Ctx.jac_sym`, `F2Ctx.rebase`)

*Result.* scipy.linalg.polar by contract (PolarLaw); self.v (for plots) not modelled.

*Theorems.* `FMPS.jac_fixed`, `FMPS.jacFixed_none`

### C96 tangent_space_basis('F2') returns an orthonormal basis and its assertions hold — proved

*Claim.* tangent_space_basis('F2', H) with Hermitian terms never fails one of its four assertions (J Hamiltonian, exp(J/10) symplectic, J2 symmetric, J1 antisymmetric) and returns an orthonormal basis of the real form of the tangent space.

*Modelled.* `FMPS.basisF2`, `FMPS.jacHalves` (`fMPS.py:1960-1984`)

*Proof.* the Hamiltonian relation in matrix form (`ham_iff`) gives the symmetry of `ΩJ`, the conjugation `Jᵀ = Ω(-J)Ω⁻¹` the symplectic exponential (`exp_symp`); entries of the Kronecker products (`jacHalves_ok`)

*Result.* numpy.allclose is a parameter that is true where all entries are zero (rounding is not modelled); 'eye' and 'rand' are C66.

*Theorems.* `FMPS.basisF2_spec`, `FMPS.jacHalves_real`

### C97 lyapunov: exponents sum to zero and are the growth rates of the product of exponentials — proved

*Claim.* Whenever lyapunov(T) returns, for Hermitian terms and an orthonormal initial basis Q: every entry of lys, lys_, exps, exps_ sums to zero; exps[m] is the mean of the first k+m+1 entries of lys divided by the step of time; and the product of the exponentials exp(J dt) at the states visited, applied to Q, is an orthonormal matrix times an upper triangular one whose diagonal has the logarithms sum(lys). lys_ averages these with the rates of the inverse transposed flow. With just_max=True the entries of lys sum to the logarithm of the growth of the first row of Q, and the returned exps is empty.

*Modelled.* `Tdvp.lyapunov`, `lyLoop`, `lyStep`, `runMean`, `Tdvp.lyapunovMax` (`fTDVP.py:316-404`); matrix exponentials are exact, QR by contract

*Proof.* invariant of the loop (`LyInv.step`, `LySeq.push`): a QR step of a symplectic matrix has `|det R| = 1` (`qr_round`), diagonals of triangular matrices multiply (`upper_mul_diag`), running means telescope; `FMPS.jac_fits` supplies Hamiltonian matrices and null vectors for the next round

*Result.* the evolution is a parameter that keeps the hypotheses of C93; the pre-evolution (D given) and the attributes of a resumed run are not modelled. With numpy >= 1.24 the default conv_window makes the first round raise ValueError (lyapunov_ragged).

*Theorems.* `Tdvp.lyapunov_spec`, `Tdvp.lyapunov_total`, `Tdvp.lyapunov_ragged`, `Tdvp.lyapunovMax_spec`, `Tdvp.lyapunovMax_total`, `FMPS.jac_run`, `FMPS.lyapunov_sum`

### C98 ts_int accumulates symplectic matrices — proved

*Claim.* Whenever ts_int(T) returns, for Hermitian terms: Ms holds the identity and then, for every step, the product of the exponentials exp(J dt) at the states visited so far; each of them preserves the symplectic form and has a determinant of modulus 1.

*Modelled.* `Tdvp.tsInt`, `tsLoop` (`fTDVP.py:410-432`)

*Proof.* induction on the rounds; products of symplectic matrices (`flow_symp`), `symp_det`

*Result.* the evolution (invfree4, invfree) is a parameter.

*Theorems.* `Tdvp.tsInt_spec`, `FMPS.tsInt_symplectic`

### C99 schmidts returns the Schmidt weights of every recorded state across every cut — proved

*Claim.* schmidts() of a trajectory has one entry per recorded state and in it one list per cut, from the left end to the right end: the Schmidt weights (squared Schmidt coefficients) of the normalised state across that cut. After edint the same for the entries of ed_history. The weights across a cut are determined by the state up to their order, are positive and sum to 1.

*Modelled.* `Tdvp.schmidts`, `schmidtRow`, `edChain`, `histChain` (`fTDVP.py:525-541`)

*Proof.* per entry with the canonical form of C54 (`FMPS.leftCanonicalise_weights`, `hist_map`); uniqueness by comparing two decompositions through the overlaps of their vectors (`schmidt_overlaps`)

*Result.* histories aligned with the log of a run (C35); recorded states have the standard structure.

*Theorems.* `Tdvp.schmidts_hist`, `Tdvp.schmidts_ed`, `Spec.SchmidtAt.perm`, `Spec.SchmidtAt.sum_eq`, `weights_sum`

### C100 von_neumann and renyi are the largest entanglement entropies over the cuts — partial

*Claim.* von_neumann()[k] is the largest of -sum(lam log lam) over all cuts of the k-th recorded state, lam its Schmidt weights; renyi(a)[k] the largest of log(sum(lam^a))/(1-a). 0 <= renyi(2) <= von_neumann() <= renyi(0) <= log D, and the first two vanish exactly for states not entangled across any cut.

*Modelled.* `Tdvp.vonNeumann`, `Tdvp.renyi`, `npArray` (`fTDVP.py:561-569`); the flag `strict` is the behaviour of `numpy.array` from 1.24 on

*Proof.* the list of maxima is the greatest element over all decompositions (`max_of_row`); Jensen for the logarithm (`jensen_log`), rank at most the bond (`schmidt_rank_bond`); at the left end there is one weight (`weights_left_end`), so the lists are rectangular only without entanglement (`rectangular_iff`)

*Result.* proved for numpy before 1.24; violated from numpy 1.24 on, where both raise ValueError as soon as a recorded state is entangled; renyi(1) raises ZeroDivisionError. Integer orders.

*Theorems.* `Tdvp.vonNeumann_hist`, `Tdvp.renyi_hist`, `Tdvp.vonNeumann_ed`, `Tdvp.entropy_chain`, `Tdvp.vonNeumann_strict_fails`, `Tdvp.vonNeumann_ed_strict_fails`, `Tdvp.vonNeumann_strict_zero`, `Tdvp.renyi_one`, `Tdvp.bell_fails`

### C101 loschmidt, mps_evs and mps_energies report overlaps, expectation values and energies of the recorded states — partial

*Claim.* loschmidt()[k] is |<psi_0|psi_k>|, 1 for k = 0 and at most 1 for normalised states. mps_evs(ops, site)[k] lists Re<op>_site in the normalised k-th state. mps_energies()[k] is the energy of the normalised k-th state, per site for a list of two-site terms, in total for a full Hamiltonian.

*Modelled.* `Tdvp.loschmidt`, `Tdvp.mpsEvs`, `Tdvp.mpsEnergies` (`fTDVP.py:496-511`, `543-559`)

*Proof.* per entry from C14, C55 and the expectation values of C18, moved from the state read back to the state recorded (`SameState`); Cauchy–Schwarz (`braket_le`)

*Result.* loschmidt is proved where every recorded state has the present bond dimension; violated otherwise (ValueError after expand) and after edint (returns Schmidt weights).

*Theorems.* `Tdvp.loschmidt_hist`, `Tdvp.loschmidt_bounds`, `Tdvp.loschmidt_ed`, `Tdvp.loschmidt_expand_fails`, `Tdvp.mpsEvs_hist`, `Tdvp.mpsEnergies_hist`

### C102 isometrise gives a PEPS that is isometric towards the centre and has norm 1 — proved

*Claim.* Whenever isometrise(oc) returns, every tensor other than the one at oc is an isometry from its legs towards oc to its other legs and the physical leg, no bond has grown, the boundaries are still open, and norm() of the result is 1 unless the tensor at oc was 0 on the bonds that are kept.

*Modelled.* `create_structure`, `random` (entries a parameter), the truncations, `isometrise` with `tensor_isometrise_*` through `group_legs`/`ungroup_legs`, the SVD a parameter (`Model/PepsIso.lean`). Specification `IsoSite`, `IsoGrid` (`Spec/IsoPeps.lean`).

*Proof.* `isometrise_isometric`: the truncations are computed on the grid (`Lemmas/IsoTrunc`), each tensor becomes the `U` of an SVD (`Lemmas/IsoTensor`), and a grid of isometries is contracted row by row from above and below, each row from both ends (`iso_braket`).

*Result.* the SVD is assumed correct (SVDLaw).

*Theorems.* `FPEPS.isometrise_isometric`, `FPEPS.iso_norm`, `FPEPS.iso_braket`

### C103 iso_E at the centre is the expectation value — proved

*Claim.* After isometrise(oc), iso_E(op), which contracts op with the one tensor at oc, equals E(op, oc), which contracts the whole PEPS.

*Modelled.* `iso_E` at the centre and elsewhere.

*Proof.* `isoE_eq_expval`: `iso_braket` with the operator applied to the centre.

*Result.* at the centre; elsewhere see C105.

*Theorems.* `FPEPS.isometrise_isometric`, `FPEPS.isoE_eq_expval`, `FPEPS.isoEAt_eq`

### C104 isometrise succeeds on every PEPS the class can build — partial

*Claim.* isometrise(oc) truncates the bonds far enough that it returns for every centre inside the grid, whatever the size of the grid, the bond dimension, and the way the PEPS was made.

*Modelled.* As C102; `Lx`, `Ly` as the constructor and `random` set them.

*Proof.* `random_isometrise` gives the exact condition for square PEPS from the extents after truncation (`Lemmas/IsoStructure`); `isometrise_constructed` and `isometrise_rect` the errors for other grids.

*Result.* violated: exact condition for square PEPS made by random; IndexError for every PEPS made by the constructor that is not square; IndexError or Exception for random ones with more columns than rows or one row more.

*Theorems.* `FPEPS.random_isometrise`, `FPEPS.isometrise_constructed`, `FPEPS.isometrise_rect`, `FPEPS.isometrise_assert`, `FPEPS.createStructure_eq`

### C105 Moses moves carry the centre to another site — partial

*Claim.* moses_move_oc_to(site) returns a PEPS with its centre at site, so that iso_E(op, site) gives the expectation value at any site; factors(n), used to split the bond, returns the pair of factors of n closest to each other.

*Modelled.* `moses_move_*`, `moses_move_oc_to`, `split_tensor` up to the call of `U2`; what follows the loop of `moses_move_right` is an arbitrary function. `factors` with the exact integer root.

*Proof.* `mosesTo_error`, `isoE_off_centre`: every path reaches `split_tensor`, which cannot unpack `None`. `factors_closest`: minimality for all `n ≥ 1`.

*Result.* violated: U2 returns None, so no move returns; factors is proved.

*Theorems.* `FPEPS.mosesTo_error`, `FPEPS.isoE_off_centre`, `FPEPS.mosesRight_error`, `FPEPS.factors_closest`

### C106 projection_error vanishes exactly when the step needs no larger bonds — partial

*Claim.* For a canonical state, projection_error(H, dt) is dt squared times a non-negative number that does not depend on dt, and it is zero exactly when H|psi> is a tangent vector at the state, that is, when TDVP at the present bond dimension loses nothing; should_expand with a non-negative threshold can therefore be true exactly in the other case.

*Modelled.* `projection_error` with its stale `l`, `should_expand`, `right_null_projector`, `tr_svd` (`Model/DynExpand.lean`); Cholesky, inverse, null space and SVD are parameters. Specification `HamTangent` (`Spec/ProjError.lean`).

*Proof.* `projectionError_ok_partial`: each open bond contributes `dt²` times a sum of squares that is zero exactly when the two-site block is tangent (`Lemmas/TwoSiteTangent`, `ProjErr`); the blocks are tangent exactly when `H|ψ⟩` is (`Lemmas/HamTangent`); induction over the sites (`ProjErrLoop`). `projectionError_exact`: with `dAdt_exact`, the error is zero exactly when `dA_dt` is the exact time derivative.

*Result.* proved when the open bonds match; otherwise ValueError (C107). Missing: H with a number of terms other than L - 1, environments that are not diagonal.

*Theorems.* `projectionError_ok_partial`, `projectionError_exact`, `shouldExpand_iff`

### C107 projection_error returns for every canonical state — partial

*Claim.* projection_error(H, dt) returns a number for every canonical state of full rank, whatever its bond dimensions are.

*Modelled.* As C106: after the first open bond `l` is a constant function.

*Proof.* `projectionError_raises`: the exact condition `OpenBondsMatch`; `projectionError_pair` a state for which it fails.

*Result.* violated: exact condition on the bond dimensions; ValueError for |0>(|00>+|11>)|0>.

*Theorems.* `projectionError_raises`, `projectionError_pair`

### C108 dynamical_expand makes a time step while it enlarges the bonds — partial

*Claim.* dynamical_expand(H, dt, D) and grow(H, dt, D) return |psi> - i dt H|psi> up to second order in dt: the one-site parts as dA_dt gives them, and the part that leaves the tangent space in the new bonds; in particular an eigenstate changes by a phase only.

*Modelled.* `dynamical_expand`, `grow` (with fuel for the `while`).

*Proof.* `dynamicalExpand_zz`: the exact amplitudes from `|00⟩` for any 4 by 4 matrix, through C48, C64 and the null vectors; `grow_eigenstate`, `grow_phase` the two consequences.

*Result.* violated: for |00> the new part is dt <10|H|01> instead of -i dt <11|H|00>.

*Theorems.* `dynamicalExpand_zz`, `grow_zz`, `grow_eigenstate`, `grow_phase`

### C109 Trajectory.dynamical_expand uses the Hamiltonian it is given — partial

*Claim.* Trajectory.dynamical_expand(D, dt, H) expands for H when it is given and for the Hamiltonian of the trajectory otherwise, and records D.

*Modelled.* `Trajectory.dynamical_expand` over an arbitrary `expand`.

*Proof.* `trajExpand_own`.

*Result.* violated: the argument is ignored, TypeError for a trajectory without a Hamiltonian.

*Theorems.* `trajExpand_own`

### C110 anisotropic_heisenberg of projects/fMPO.py is the MPO of the XXZ chain — partial

*Claim.* anisotropic_heisenberg(L, h, J, Jz) is a matrix product operator of L tensors whose matrix elements are those of sum J/2 (S+S- + S-S+) + Jz ZZ - h sum Z.

*Modelled.* `anisotropic_heisenberg` of `projects/fMPO.py` with its blocks (`Model/ProjFmpo.lean`). Specification `hamElem` (`Spec/Ham.lean`).

*Proof.* `anisotropicHeisenberg_spec`: the operator-valued automaton, induction over the bulk tensors from the right; `anisotropicHeisenberg_one` the negation for `L ≤ 1`.

*Result.* proved for L ≥ 2; violated for L ≤ 1: two tensors are returned.

*Theorems.* `ProjMpo.anisotropicHeisenberg_spec`, `ProjMpo.anisotropicHeisenberg_one`

### C111 effH is the effective Hamiltonian of one site — partial

*Claim.* effH.asmatrix(), built by get_envs(W, mps, k), is the matrix of the MPO between the states obtained by varying the tensor of site k, with indices (site, left bond, right bond), and effH.mv(x) is the product with that matrix; DMRG takes its lowest eigenvector.

*Modelled.* `MPO` environments, `get_envs`, `effH.mv`, `effH.asmatrix` (`Model/ProjFmpo.lean`); the sparse eigensolver and the sweeps of `DMRG` are not modelled. Specification `effElem`: amplitudes of the MPO between varied states (`Spec/MpoEff.lean`).

*Proof.* Environments by induction (`Lemmas/MpoEnv`); the contractions entry by entry (`Lemmas/EffTensor`). `asmatrix_spec`, `mv_spec` give the exact entries (`effElemT`, right bond indices exchanged); `asmatrix_wrong`, `mv_wrong` the negations on two sites.

*Result.* violated: the right bond indices of bra and ket are exchanged, and mv returns another order of the axes; exact description for all inputs, correct at the last site (asmatrix), consistent at the first (mv).

*Theorems.* `ProjMpo.getEnvs_ok`, `ProjMpo.asmatrix_spec`, `ProjMpo.mv_spec`, `ProjMpo.asmatrix_last`, `ProjMpo.mv_first`, `ProjMpo.asmatrix_wrong`, `ProjMpo.mv_wrong`

### C112 qmb Hamiltonians: full and local forms agree with the definition — partial

*Claim.* anisotropic_heisenberg(J, Jz, h, N) is the matrix of the XXZ chain; the terms of local_anisotropic_heisenbergs and local_isings, each put on its bond, sum to the matrix of the XXZ chain and of the transverse field Ising chain, so that S_n_body(op, i, n) is op on site i for every valid i.

*Modelled.* `S_n_body`, `anisotropic_heisenberg`, `local_anisotropic_heisenbergs`, `local_isings` (`Model/Qmb.lean`); `qutip` operators are their matrices. Specifications `hamElem`, `siteElem`, `bondElem`, `blockElem`.

*Proof.* Products of site operators through `tensor_block` (C15), sums by induction over the sites; `sNBody_low`, `localHeisenbergs_one` the negations.

*Result.* proved for N ≥ 1 (full) and N ≥ 2 (local); violated for N = 1 (one two-site term is returned) and for negative sites (identity).

*Theorems.* `Qmb.sNBody_spec`, `Qmb.sNBody_high`, `Qmb.sNBody_low`, `Qmb.pairTerm_ok`, `Qmb.anisotropicHeisenbergFull_spec`, `Qmb.localHeisenbergs_spec`, `Qmb.localHeisenbergs_one`, `Qmb.localIsings_spec`

### C113 fTFD.dA_dt is the flow of H on both copies — partial

*Claim.* For a thermofield double, fTFD.dA_dt(H) is the projected time derivative under the Hamiltonian H on the first copies plus H on the second copies.

*Modelled.* `fTFD.dA_dt` on top of the model of `fMPS.dA_dt` (`Model/TfdTdvp.lean`). Specifications: `copiesAct` (H on both copies), `sitesAct` (every matrix on single sites) in `Spec/TfdAct.lean`.

*Proof.* `kron(eye, h) + kron(h, eye)` as a two-site matrix acts on the sites separately (`doubled_gate`), so the vector is tangent (`doubled_tangent`) and `dAdt_exact` gives the flow (`dAdt_eq`); `dAdt_wrong` the negation for the double of |00⟩.

*Result.* violated: the terms act on the two sites instead of the two copies; the exact flow is proved for all inputs.

*Theorems.* `TFD.dAdt_eq`, `TFD.dAdt_wrong`

### C114 mps_OTOC returns the out-of-time-order correlator — partial

*Claim.* Trajectory.mps_OTOC(V, W, ...) returns, for every time, the out-of-time-order correlator of the evolved W and V in the initial state; it is zero when the operators commute.

*Modelled.* `mps_OTOC` with the application of an operator, canonicalisation and scaling of the first tensor (`Model/Otoc.lean`); the step to the next time refers to an undefined name and is `NameError`. Specification: `commAct`, `otocNow`, `OtocEntry`.

*Proof.* `mpsOTOC_ok` gives every entry as 2 − ½ Re(phase · overlap) of unit vectors, `otocEntry_range` bounds it by Cauchy–Schwarz, `mpsOTOC_name` the `NameError`, `mpsOTOC_wrong` the negation for commuting operators.

*Result.* violated: NameError as soon as an interval has a time step; otherwise every entry lies in [3/2, 5/2] while commuting operators have correlator 0; the state of the trajectory is multiplied by |Wψ|^(3^n - 1) after n times, up to a phase.

*Theorems.* `Tdvp.mpsOTOC_ok`, `Tdvp.otocEntry_range`, `Tdvp.mpsOTOC_steps`, `Tdvp.mpsOTOC_name`, `Tdvp.mpsOTOC_wrong`

### C115 rho_proj is the partial trace of |self><other| — partial

*Claim.* x.rho_proj(y, sites) is the matrix of the partial trace of |x><y| over the sites that are not listed.

*Modelled.* `rho_proj` (`Model/RhoProj.lean`); bonds of `other` above one and a local dimension of one are an error there. Specification: `crossDens`, `conjOutside`.

*Proof.* Induction over the chain of one-dimensional bonds (`sum_prodVal`, `crossDens_product`), evaluation of the outer products (`outer_ok`, `outers_ok`) and their Kronecker product (`tensor_spec`); `rhoProj_wrong` the negation for |0⟩(|0⟩+i|1⟩).

*Result.* violated: the tensors of self outside the sites are conjugated once too often; exact value for all product states, the promised one if those tensors are real; None for larger bonds.

*Theorems.* `FMPS.rhoProj_exact`, `FMPS.rhoProj_real_partial`, `FMPS.rhoProj_none`, `FMPS.rhoProj_wrong`

### C116 Overlaps with product states — partial

*Claim.* x.local_overlap(y, sites) is Tr(rho_x rho_y) also when one state is a product state; product_state_overlap is the inner product with the product of the given vectors; k_local_approx_overlap with k the length of the chain agrees with k=None.

*Modelled.* The branches of `rho` and `local_overlap` for bond dimension one (`Model/Expect.lean`), `product_state_overlap`, `approx_overlap`, `k_local_approx_overlap` (`Model/RhoProj.lean`). Specification: `blockNorm`, `densOverlap`.

*Proof.* `rhoString_spec` relates the string of one-site matrices to the density matrix of the block, `EkString_spec` and `opExpect_eq_trace` give the trace; `localOverlap_wrong` the negation (2 instead of 1). For a product state the loop over the windows is an induction in which the changed state stays in its ray (`Props/KLocal.lean`).

*Result.* violated: the norm of the tensors of the product state on the sites is not divided out; k = L gives the squared modulus for normalised states, k = None the complex inner product. For a product state every k is covered (the mean over all windows); for two states with larger bonds values of k between are not proved, since moving the centre may change the bond dimension and with it the branch.

*Theorems.* `FMPS.rhoString_spec`, `FMPS.localOverlap_product`, `FMPS.localOverlap_product_right`, `FMPS.localOverlap_wrong`, `FMPS.productStateOverlap_spec`, `FMPS.kLocal_none`, `FMPS.kLocal_nan`, `FMPS.kLocal_full`, `FMPS.approxOverlap_product`, `FMPS.kLocal_product`, `FMPS.kLocal_unit`

### C117 apply_two_site_isometry replaces two sites by one — partial

*Claim.* x.apply_two_site_isometry((op, (i, j)), lr) returns a chain in which the two sites are replaced by the site that the isometry op maps them to.

*Modelled.* `apply_isometry`, `apply_two_site_isometry` with the SWAPs of the model of `apply_two_site` (`Model/IsoRandom.lean`). Specification: `isoAct`.

*Proof.* The grouped tensor contracted with the isometry (`applyIsometry_ok`) inserted into the sum over bonds (`amp_mid`); `applyTwoSiteIsometry_chain` decides when the returned tensors fit.

*Result.* violated: the second site is not removed, the object is a chain only if two bonds agree; after removing it by hand the state is right (neighbouring sites). Missing: sites that are not neighbours.

*Theorems.* `FMPS.applyTwoSiteIsometry_neighbours_partial`, `FMPS.applyTwoSiteIsometry_chain`, `FMPS.applyTwoSiteIsometry_same`

### C118 random returns a chain of the requested structure — partial

*Claim.* x.random(L, d, D) makes x a chain of L sites of local dimension d with bonds at most D, real if asked for, on which the other methods (such as rho) act as on any other chain.

*Modelled.* `random` with the random numbers as parameters (`Model/IsoRandom.lean`): angles of the Bloch vectors for `D = 1`, array entries otherwise; the distribution is not modelled.

*Proof.* Induction over the bonds (`chain_bonds`) with `createStructure_spec`; `blochTensor_norm`; `random_stale` evaluates `rho` on the object with the old centre.

*Result.* violated: D = 1 ignores d, one site raises IndexError, the attribute oc survives and makes rho wrong; the rest proved for all outcomes of the generator.

*Theorems.* `FMPS.random_product`, `FMPS.random_product_wrong`, `FMPS.random_chain`, `FMPS.random_one_site`, `FMPS.random_real`, `FMPS.random_stale`

### C119 random_with_energy_E returns a state of the requested energy — partial

*Claim.* x.random_with_energy_E(E, H, L, d, D, tol, maxiters) returns a normalised chain of L sites whose energy(H) differs from E by at most tol, or raises an exception after at most maxiters rounds; every small enough step moves the energy towards E.

*Modelled.* `random_with_energy_E` with both loops (`Model/EnergySearch.lean`): the inner loops with a bound on the number of steps, whose exhaustion is the outcome `diverges`; `energy` is read once per state. The constants 0.1, 1e-5, 1e-2 are exact.

*Proof.* Invariant `Ready` (normalised, diagonal positive environments) through every step: the step keeps the overlap with the state (`line_overlap`), so that `left_canonicalise` has a state to work on; the direction of a step is the sign of the derivative of `dAdt_line_energy`.

*Result.* a returned state has the energy asked for and each small step goes the right way; violated: the inner loop can run for ever (energies within 0.01 of E that cannot be reached). Not modelled: floating point, the distribution of the random numbers.

*Theorems.* `FMPS.randomWithEnergy_cases`, `FMPS.randomWithEnergy_unreachable`, `FMPS.energyStep_direction`, `FMPS.randomWithEnergy_endless`, `FMPS.randomWithEnergy_raises`, `FMPS.randomWithEnergy_identity`

### C120 the Hamiltonians of the project scripts are the Ising and Heisenberg chains — partial

*Claim.* The list heis(L, Δ) adds up to Σ SxSx + SySy + Δ SzSz over the bonds and isin(L, λ) to −Σ SzSz + λ Σ Sx with the field once on every site; iHam gives one such term per bond of the infinite chain.

*Modelled.* `heis`, `isin` of `projects/fHam.py` (spin 1) and `projects/iHam.py` (spin 1/2) for any spin `n/2` (`Model/ProjHam.lean`), with the matrices of `spins` and `N_body_spins`. The relative imports of these scripts do not resolve inside `projects`; the model takes the functions of the package.

*Proof.* The terms are added over the chain entry by entry (`blockElem`) and compared with the operators written per site and per bond (`isingElem`, `xxzElem`); the failures follow by looking at one entry of the difference, for every length.

*Result.* the exact sum of the terms for every L, Δ, λ and spin; violated: the field is doubled on the inner sites (right only for three sites), the last term of heis acts twice on the first site of the bond.

*Theorems.* `ProjHam.isin_sum`, `ProjHam.isin_three`, `ProjHam.isin_wrong`, `ProjHam.isin_two`, `ProjHam.isin_one`, `ProjHam.iIsin_sum`, `ProjHam.heis_sum`, `ProjHam.iHeis_sum`, `ProjHam.heis_wrong`

### C121 optimise of the project script lowers the energy and returns energy per site — partial

*Claim.* optimise(H, L, D) never raises; it returns a normalised state reached from a random one by imaginary time steps, each of which lowers the energy, stopping when the change is below tol or after max_iters steps; the number beside it is the energy per site of the state returned.

*Modelled.* `optimise` of `projects/fHam.py` (`Model/ProjHam.lean`) on the model of `random`, `dA_dt`, `left_canonicalise` and `energy`; 0.1 is exact.

*Proof.* Induction over the rounds with the invariant `Ready` of C119. The step that raises the energy: `0.8|00⟩+0.6|11⟩` with `250|11⟩⟨11|`, where `Hψ` is a tangent vector so that the step is exactly `ψ-(H-E)ψ/10` (`dAdt_exact`).

*Result.* never raises, the states are normalised and reached by Euler steps, stop conditions; violated: the number returned is the energy per site divided by L once more; a step can raise the energy. Assumes the random state is not zero; floating point not modelled.

*Theorems.* `ProjHam.optimise_spec`, `ProjHam.optimise_value`, `ProjHam.optimise_identity`, `ProjHam.optimise_other`, `ProjHam.optStep_up`

### C122 CR and pCR recognise spin operators and Pauli matrices — partial

*Claim.* CR(S) is true exactly for triples with [Sa, Sb] = i εabc Sc and pCR(S) exactly for triples with [Sa, Sb] = 2i εabc Sc, up to the tolerance of allclose; in particular CR accepts spins(s) for every spin and pCR the Pauli matrices.

*Modelled.* `CR`, `pCR` (`Model/SpinCheck.lean`), with `allclose` written out (`1e-8 + 1e-5 |b|`) in exact arithmetic.

*Proof.* The answer is unfolded to the inequality per entry (`checkCR_iff`); the commutators of the spins of every size come from C34, the false positive is the 1×1 triple (0, 0, 1e-8).

*Result.* the exact answer for every triple; accepts the spins of every size and the Pauli matrices; violated for operators below the absolute tolerance 1e-8 of allclose, which are accepted whatever their commutators.

*Theorems.* `Spin.checkCR_iff`, `Spin.checkCR_of_rel`, `Spin.CR_spins`, `Spin.pCR_paulis`, `Spin.pCR_spins`, `Spin.CR_wrong`

### C123 direct_sum and tr_svd of tensor.py — partial

*Claim.* direct_sum(A, B) is the block diagonal matrix of A and B; tr_svd(A, D) keeps the D largest singular values and its product differs from A by the dropped ones in Frobenius norm.

*Modelled.* `direct_sum`, `tr_svd` (`Model/TensorMisc.lean`).

*Proof.* Entry by entry over the concatenations; the error of `tr_svd` by orthonormality of the columns and rows kept.

*Result.* direct_sum of square matrices is the block diagonal matrix, tr_svd drops exactly the smallest singular values; violated: direct_sum raises ValueError unless both matrices are square.

*Theorems.* `TensorMisc.directSum_square`, `TensorMisc.directSum_wrong`, `TensorMisc.trSvd_spec`

### C124 haar_unitary is unitary and get_null_space is an orthonormal basis of the kernel — proved

*Claim.* haar_unitary(n) returns a unitary matrix for every outcome of the random numbers; get_null_space(A) returns columns v with A v = 0 and v† v = 1, a basis of the kernel when the rows of A are independent.

*Modelled.* `haar_unitary`, `get_null_space` (`Model/TensorMisc.lean`); the random matrix is a parameter.

*Proof.* From `QRFullLaw`; completeness by invertibility of the triangular factor when the rows are independent.

*Result.* under the contract QRFullLaw of scipy.linalg.qr; that the distribution is the Haar measure is not expressed.

*Theorems.* `TensorMisc.haarUnitary_unitary`, `TensorMisc.getNullSpace_spec`

### C125 svd of svd_robust.py falls back to gesvd exactly when gesdd does not converge — proved

*Claim.* svd(a) returns what gesdd returns, or what gesvd returns if gesdd raised LinAlgError; it raises LinAlgError only if both do; an unknown driver is refused; and it is a singular value decomposition for every matrix if and only if the driver that answers gives one.

*Modelled.* `svd` of `svd_robust.py` branch by branch (`Model/SvdRobust.lean`); the two drivers are parameters that return or raise.

*Proof.* Case analysis on the outcome of `gesdd`; `svd_law` turns the contract on the drivers into the `SVDLaw` assumed by the canonicalisations.

*Result.* the two LAPACK drivers are parameters; the branch for scipy before 0.18 is not modelled.

*Theorems.* `SvdRobust.svd_default`, `SvdRobust.svd_linAlgError`, `SvdRobust.svd_gesvd`, `SvdRobust.svd_invalid`, `SvdRobust.svd_law`, `SvdRobust.svd_law_iff`

### C126 renyi of peps_tools.py is the second Rényi entropy after the gate — proved

*Claim.* For a unitary gate U on two legs, renyi(U, θ) = -log tr ρ², where ρ is the density matrix of the first leg and the left bond of Uθ; for a normalised state it is a number ≥ 0.

*Modelled.* `E2`, `renyi` (`Model/Disentangle.lean`) on the model of `ncon` and `tensordot`.

*Proof.* The contraction is evaluated by the Einstein sum of C01; row orthonormality of the gate removes the gate and its conjugate; `tr ρ² ≤ (tr ρ)²` by Cauchy-Schwarz.

*Result.* exact arithmetic; U unitary.

*Theorems.* `Disent.E2_ok`, `Disent.purity_ok`, `Disent.renyi_value`, `Disent.renyi_nonneg`, `Disent.trSq_le`, `Disent.gated_norm`

### C127 renyi_2_disentangler ends with a unitary that lowers the entropy — partial

*Claim.* renyi_2_disentangler(psi, eps, max_iter) returns a unitary U and the entropies found on the way, the last being that after U and within eps of the one before; the entropy after U is not above that of psi.

*Modelled.* `renyi_2_disentangler` (`Model/Disentangle.lean`): the two loops as one over the same states, with fuel; `polar` and `qr` under `PolarLaw`, `QRLaw`; the random matrices are an arbitrary sequence.

*Proof.* Induction over the rounds with an invariant. For the failure: on `psiW` every gate stays diagonal with entries `p, p*, p*, p`; the polar factor is computed exactly (`polar_of_unitary`), and the phase `y = p⁴z` is shown to stay between that of the state and twice it.

*Result.* never raises; what is returned is unitary, with the entropies as stated; violated: with max_iter at most 2 or a negative eps it never ends, and for a concrete normalised state every run that ends without a restart raises the entropy (the polar factor of E2 is used where its adjoint belongs). Termination for larger max_iter is not decided.

*Theorems.* `Disent.disentangler_partial`, `Disent.disentangler_diverges`, `Disent.disentangler_up`, `Disent.disentangler_up_run`, `Disent.psiW_norm`, `Disent.psiW_entropy`, `Disent.polar_of_unitary`

### C128 find_ground_state returns a canonical state and the energies on the way — partial

*Claim.* find_ground_state(H, D, ϵ, maxiters, tol) returns a left canonical state and one energy per bond for every state of the run, the last being that of the state returned; if it stops before maxiters steps, the gradient there is below tol.

*Modelled.* `find_ground_state` with the attribute `e` set by `dA_dt` (`Model/FindGround.lean`), on the models of `dA_dt` and `canonicalise`; the random numbers are a parameter. `eigs` under `FixLaw`: where it returns, positive definite fixed points of a simple eigenvalue.

*Proof.* Induction over the rounds gives the states of a run (`GroundTrace`). A left canonical tensor has a multiple of the identity and a diagonal matrix as fixed points, so that `e` is the energy and `dA_dt` returns (injectivity of the map of `Lh`) a tensor orthogonal to the state. A run of any length is shown to exist.

*Result.* every state is left canonical, every number recorded the energy per bond, the steps and the end as in the code, and only the eigensolver can raise; violated: the energy of the state returned is not recorded, and tol bounds ϵ times the gradient, so that for every small enough ϵ the random state is returned at once. That the energies go down is not proved.

*Theorems.* `IMPS.findGround_spec`, `IMPS.findGround_progress`, `IMPS.step_norm`, `IMPS.findGround_small`, `IMPS.findGround_size`, `IMPS.findGround_zero`, `IMPS.leftCanon_round`, `IMPS.fixLaw_exists`

### C129 eulerint and rk4int of infinite states record the states at the times; loschmidts are the rates — partial

*Claim.* Trajectory(mps, H).eulerint(T) and rk4int(T) of iTDVP.py record one left canonical state per time of T, each one step after the one before, leave the state of the last time in mps, and loschmidts() is then one number per time: the rate of the overlap with the first state, never negative, zero for the same state.

*Modelled.* `Trajectory` of `iTDVP.py` with its history and `Ds`, `euler`, `rk4`, `eulerint`, `rk4int`, `loschmidts` (`Model/ItdvpRun.lean`), on the models of `dA_dt`, `canonicalise`, `overlap` and (de)serialisation.

*Proof.* Induction over the times gives the states of a run and the entries of the history (`Records`); reading back is the round trip of C74, the rates follow from `overlap_spec` with `mps_0` carried through the loop, which `overlap` changes. Runs of any length from the cluster state are shown to exist.

*Result.* proved for two or more times (for loschmidts on a new trajectory, bond dimension two or more, up to nan); violated: one time is an IndexError, and of times that are not equally spaced only the first two and the number enter.

*Theorems.* `ITdvp.eulerint_spec`, `ITdvp.rk4int_spec`, `ITdvp.integrate_spec`, `ITdvp.eulerint_progress`, `ITdvp.euler_norm`, `ITdvp.loschmidts_spec`, `ITdvp.integrate_short`, `ITdvp.integrate_times`, `ITdvp.rk4_step`

### C130 optimise of iHam.py steps in imaginary time and returns the energy per bond — partial

*Claim.* optimise(H, D, 'euler', max_iters, tol) of projects/iHam.py returns the last of a run of imaginary time Euler steps, each made canonical in the mixed gauge, that ends after max_iters steps or as soon as two energies in a row differ by less than tol; the number beside the state is its energy per bond.

*Modelled.* `optimise` of `projects/iHam.py` with `method='euler'` (`Model/IHamOpt.lean`), on the models of `canonicalise`, `dA_dt` and `energy`; `random` is the tensor `A0`.

*Proof.* Induction over the rounds gives the run (`OptRun`). The eigenvalue of the mixed canonical tensor is found by pairing with its positive diagonal fixed point, simplicity makes the fixed point `eigs` returns diagonal too, and `energy_eq` then gives the factor. Partial: not shown that a step lowers the energy. Runs of any length are shown to exist for bond dimension one.

*Result.* the run and the stopping rule are proved whenever the call returns; violated: the number is the energy per bond times tr(l^T r)^2 for the fixed points of the last tensor, (8/17)^2 in place of 1 in the witness, which makes no step; the number is right if one fixed point is symmetric, and for bond dimension one, where the call always returns. That each step lowers the energy is not proved.

*Theorems.* `ProjHam.iOptimise_spec`, `ProjHam.energy_mixed`, `ProjHam.energy_mixed_partial`, `ProjHam.iOptimise_product`, `ProjHam.iOptimise_wrong`

### C131 random thermofield states are symmetric in the two copies — partial

*Claim.* fTFD().random(L, d, D) is the double of a random fMPS: its amplitude on a pair of basis states is the product of the amplitudes, its attributes say d**2 and D**2, and exchanging the copies changes no tensor. With pure=False it is a state of the same doubled chain, the sum of random tensors and the ones with exchanged copies, again unchanged by the exchange.

*Modelled.* `fTFD.random` (`Model/TfdRandom.lean`) on the models of `fMPS.random` and `symmetrise`; the random numbers are parameters.

*Proof.* The pure case from the amplitude and symmetry of `from_fMPS`, the other from the shapes of the random tensors, whose legs are all squares. Violations by evaluating the calls for every `L`.

*Result.* proved for two or more sites and D of two or more, and for pure states with D = 1 and d = 2; violated: with D = 1 the tensors have local dimension 4 whatever d is, pure=False with D = 1 always raises ValueError, one site raises IndexError unless D = 1.

*Theorems.* `TFD.random_pure`, `TFD.random_pure_wrong`, `TFD.random_mixed`, `TFD.random_mixed_one`, `TFD.random_one_site`

### C132 symm_asymm gives the projectors on symmetric and antisymmetric vectors of a doubled bond — partial

*Claim.* fTFD.symm_asymm(D**2) returns two complementary orthogonal projectors of ranks D(D+1)/2 and D(D-1)/2 and their difference; the difference is the exchange of the two copies of the bond, so that the first projector leaves exactly the symmetric vectors.

*Modelled.* `fTFD.symm_asymm` (`Model/TfdSymm.lean`).

*Proof.* The three matrices are shown to be diagonal, the identities and traces follow; the violation is the basis vector of the last pair, fixed by `Spec.exchange`.

*Result.* projectors, ranks and difference are proved for every D; violated for every D of two or more: the matrices are diagonal, the projector on the first D(D+1)/2 basis states, and the last pair of equal indices, which is symmetric, is taken to zero; right for D = 1.

*Theorems.* `TFD.symmAsymm_ok`, `TFD.symmAsymm_projectors`, `TFD.symmAsymm_wrong`, `TFD.symmAsymm_one`

### C133 local_ising and local_XX of qmb.py are the terms of the models they name — partial

*Claim.* [local_ising(J, g)]*(N-1) stands for the transverse-field Ising model -J ZZ - g X on N sites, with half the field on the ends; [local_XX(J, g)]*(N-1) stands for the XX model -J/2 (XX + YY) with a field -g along z.

*Modelled.* `local_ising`, `local_XX` (`Model/QmbLocal.lean`), with the operators of `Model/Qmb.lean`.

*Proof.* The matrix of each term is found with `Rep`, put on every bond by `block_place`, and the fields are summed over the sites.

*Result.* local_ising is proved for every N; local_XX is proved to be the XX model with a field -J that the last site does not feel, so the claim is violated: g is ignored.

*Theorems.* `Qmb.localIsing_spec`, `Qmb.localXX_spec`, `Qmb.localXX_wrong`

### C134 i_cat is the cat state for ϵ = 0 and symmetric under turning all spins over for every ϵ — proved

*Claim.* On rings of every length the amplitudes of i_cat(ϵ) are unchanged if all spins are turned over; those of i_cat(0) are 1 if all spins are equal and 0 otherwise.

*Modelled.* `i_cat` (`Model/ExamplesCat.lean`), the assignments one by one.

*Proof.* The exchange of the bond states takes one matrix to the other, and cancels along the ring by induction; for `ϵ = 0` the products are diagonal, by induction.

*Result.* for ϵ other than 0 and -1 spins that are not all equal have an amplitude (iCat_mixed).

*Theorems.* `Examples.iCat_flip`, `Examples.iCat_zero`, `Examples.iCat_mixed`

### C135 fix_neighbours makes the bonds of one site of a PEPS fit — partial

*Claim.* fPEPS.fix_neighbours(i, j) never raises, gives every bond of the tensor in column i and row j the smaller of the two dimensions that meet there, keeps the entries that are left and every other leg. A network that fits is not changed, and one in which only the bonds of that site do not fit does so afterwards.

*Modelled.* `fix_neighbours` (`Model/PepsFix.lean`); the nested list is a function of row and column, with the numbers of rows and columns beside the attributes `Lx` and `Ly`.

*Proof.* The dimensions after one bond are found (`meet_ok`); the four bonds touch different legs, so the four results are put together by case distinction.

*Result.* proved for sites counted from zero if Lx and Ly are the numbers of columns and rows, as random sets them; violated for networks that are not square and come from the constructor, which swaps Lx and Ly: the last column or row raises IndexError. For negative indices the code takes other neighbours, which is not modelled.

*Theorems.* `FPEPS.fixNeighbours_spec`, `FPEPS.fixNeighbours_same`, `FPEPS.fixNeighbours_fits`, `FPEPS.fixNeighbours_tall`, `FPEPS.fixNeighbours_wide`

### C136 == of chains and unit cells compares the tensors — partial

*Claim.* x == y of two fMPS (or two iMPS) says whether they have the same tensors: the same number of them, the same shapes, and entries that agree to within the tolerance of numpy.allclose; it never raises, and it is symmetric. x != y is the negation.

*Modelled.* `__eq__` and `__ne__` of `fMPS` and `iMPS`, the same text (`Model/EqMps.lean`), with `allclose` and its broadcasting.

*Proof.* Broadcasting is shown to be the identity for equal shapes, then induction over the list; the violations are families (a chain and its extensions, every pair of dimensions) or explicit tensors.

*Result.* proved for lists with the same shapes; violated: a chain is equal to every longer one that begins with it, shapes are broadcast so that different states can be equal, bonds of different dimensions greater than one raise ValueError, and the tolerance is not symmetric.

*Theorems.* `EqMps.eq_spec`, `EqMps.ne_spec`, `EqMps.eq_prefix`, `EqMps.eq_broadcast`, `EqMps.eq_broadcast_iff`, `EqMps.eq_raises`, `EqMps.eq_asymmetric`

### C137 == of PEPS compares the networks — partial

*Claim.* x == y of two fPEPS says whether they are the same network: the same orthogonality centre (or none), the same X and d, the same numbers of rows and of tensors in each row, the same shapes, and entries that agree to within the tolerance of numpy.allclose; it does not raise.

*Modelled.* `fPEPS.__eq__` (`Model/PepsEq.lean`), with `allclose` of the attributes and of the shapes as it is used there; `X` and `d` are taken to be set in both networks.

*Proof.* Below 99999 `allclose` of integers is equality; induction over the pairs of tensors; the pairs of two grids of the same size are all the tensors.

*Result.* proved for networks of the same size, with dimensions and coordinates below 99999; violated: rows that only one of the networks has are not compared, so a network is equal to the one that goes on below it.

*Theorems.* `FPEPS.eq_same_size`, `FPEPS.eq_common`, `FPEPS.eq_rows`

### C138 Rows of tensors: random, trivial, quarter turns — partial

*Claim.* fMPO().random(L, d, X) is a chain of L tensors whose bonds fit, with outer bonds of dimension one; fMPO().trivial(L) is neutral for the product, on the left of rows with nothing below them and on the right of rows with nothing above them; rotate_90 turns every tensor by a quarter and unrotate_90 undoes it.

*Modelled.* `create_structure`, `random` (entries a parameter), `trivial`, `rotate_90`, `unrotate_90` of `fMPO` (`Model/FmpoMake.lean`), over the product of C42.

*Proof.* Induction over the inner sites; the product with an array of one entry is evaluated by the contraction theorem of C42; a quarter turn is specified on entries, and two tensors with the same turned tensor are the same.

*Result.* proved for two or more sites; violated for one site (and for none): two tensors are made, although L says one.

*Theorems.* `FMPO.random_holds`, `FMPO.random_short`, `FMPO.trivial_short`, `FMPO.trivial_mul`, `FMPO.mul_trivial`, `FMPO.rotate_unrotate`

### C139 The compiled loop of left_transfer agrees with the one in Python — proved

*Claim.* lt of left_transfer.pyx, its copy lt_ in fMPS.py and the function inside fMPS.left_transfer return the same list, or raise the same error, on all arguments; on a chain the entry n - j of that list is the operator pulled back through the sites n, ..., i - 1.

*Modelled.* The loops of `left_transfer.pyx`, of `lt_` and of the function inside `left_transfer` as they are written (`Model/LeftLoop.lean`), next to the recursion used for C41.

*Proof.* The appending loop goes through the states of the inserting one turned round; the last pass of the inserting loop is the outermost step of the recursion; then C41.

*Result.* for sites that are natural numbers; the compiled function and lt_ have the same text and are one definition.

*Theorems.* `LeftLoop.lt_eq_inner`, `LeftLoop.ltInner_eq`, `LeftLoop.lt_eq`, `LeftLoop.lt_spec`

### C140 Random Vidal cells and their transfer matrix — proved

*Claim.* ivMPS().random(d, D, period) has period pairs (Gamma, Lambda) of shapes (d, D, D) and (D, D); Lambda is diagonal, its entries are not negative and in decreasing order. transfer_matrix() of a cell of one pair has the entries sum over s of A[s,a,b] conj(A[s,a',b']) with A = Gamma Lambda, legs in the order a, b, a', b', and raises AssertionError for other periods.

*Modelled.* `ivMPS.random` (the drawn numbers are parameters) and `ivMPS.transfer_matrix` (`Model/IvMake.lean`).

*Proof.* Sortedness and permutation of merge sort, turned round; the two contractions evaluated entry by entry.

*Result.* the numbers drawn are parameters; sorting is stable merge sort over the reals (exact arithmetic).

*Theorems.* `IvMPS.randomL_spec`, `IvMPS.random_spec`, `IvMPS.transferMatrix_spec`, `IvMPS.transferMatrix_period`

### C141 Null vectors of a thermofield double are split into two parities — partial

*Claim.* fs(X) exchanges the two copies in the site leg of X. get_vL() of an fTFD returns for every site two arrays whose sum are the null vectors of that site; the first is unchanged when the copies are exchanged with fs and the bond is multiplied with the matrix M that is returned, the second changes its sign.

*Modelled.* `fs` and the splitting done in `fTFD.get_vL` (`Model/TfdVL.lean`); the null vectors returned by `left_null_projector` are a parameter.

*Proof.* Reshape and transpose evaluated entry by entry; multiplying with `M` and exchanging the copies is an involution.

*Result.* proved for sites and left bonds whose dimensions are squares; otherwise ValueError. That M is not the exchange of the copies on the bond is C132.

*Theorems.* `TFD.fs_spec`, `TFD.fs_raises`, `TFD.splitVL_spec`, `TFD.splitVL_raises`

## Appendix: axioms of each theorem in the manifest

Output of `#print axioms` (tools/axioms.sh), names without the prefix `Xmps.`.

**propext, Classical.choice, Quot.sound** (674): `Cache.christoffel_cached`, `Cache.run_fresh`, `Cell.call_shifted`, `Cell.deserializeReal_serializeReal`, `Cell.deserialize_serialize`, `Cell.init_good`, `Cell.load_store`, `Cell.load_store_fails`, `Cell.store_other`, `Disent.E2_ok`, `Disent.disentangler_diverges`, `Disent.disentangler_partial`, `Disent.disentangler_up`, `Disent.disentangler_up_run`, `Disent.gated_norm`, `Disent.polar_of_unitary`, `Disent.psiW_entropy`, `Disent.psiW_norm`, `Disent.purity_ok`, `Disent.renyi_nonneg`, `Disent.renyi_value`, `Disent.trSq_le`, `EqMps.eq_asymmetric`, `EqMps.eq_broadcast`, `EqMps.eq_broadcast_iff`, `EqMps.eq_prefix`, `EqMps.eq_raises`, `EqMps.eq_spec`, `EqMps.ne_spec`, `Examples.aklt_wrong`, `Examples.bell_none`, `Examples.bell_orthogonal`, `Examples.bell_spec`, `Examples.compX_doc`, `Examples.compX_spec`, `Examples.compZ_spec`, `Examples.iCat_flip`, `Examples.iCat_mixed`, `Examples.iCat_zero`, `Examples.iCompZ_spec`, `Examples.quintet_lower`, `Examples.quintet_m`, `Examples.quintet_top`, `Examples.tri_energy`, `Examples.tri_ground`, `FMPO.fromMps_elem`, `FMPO.mulMps_elem`, `FMPO.mulMps_recombine`, `FMPO.mul_elem`, `FMPO.mul_recombine`, `FMPO.mul_trivial`, `FMPO.random_holds`, `FMPO.random_short`, `FMPO.recombine_ok`, `FMPO.recombine_single`, `FMPO.rotate_unrotate`, `FMPO.transposeUd_elem`, `FMPO.trivial_mul`, `FMPO.trivial_short`, `FMPS.ECanon_spec`, `FMPS.EL_spec`, `FMPS.E_spec`, `FMPS.E_symmetric_partial`, `FMPS.E_transposed`, `FMPS.EkString_spec`, `FMPS.Ek_spec`, `FMPS.Es_spec`, `FMPS.Honest.calls`, `FMPS.add_not_sum_one_site`, `FMPS.add_one_site_drops_other`, `FMPS.add_recombine_partial`, `FMPS.add_state_partial`, `FMPS.applyTwoSiteIsometry_chain`, `FMPS.applyTwoSiteIsometry_neighbours_partial`, `FMPS.applyTwoSiteIsometry_same`, `FMPS.applyTwoSite_neighbours`, `FMPS.applyTwoSite_onesite`, `FMPS.applyTwoSite_onesite_raises`, `FMPS.applyTwoSite_order`, `FMPS.applyTwoSite_spec`, `FMPS.applyTwoSite_stale`, `FMPS.applyTwoSite_state`, `FMPS.applyTwoSite_svd`, `FMPS.apply_comm`, `FMPS.apply_comp`, `FMPS.apply_state`, `FMPS.approxOverlap_product`, `FMPS.basisF2_spec`, `FMPS.christoffel_closed`, `FMPS.christoffel_spec`, `FMPS.createStructure_spec`, `FMPS.createStructure_symm`, `FMPS.dAdtFull_best`, `FMPS.dAdtFull_energy`, `FMPS.dAdtFull_gauge`, `FMPS.dAdtFull_leftCanonicalise`, `FMPS.dAdtFull_norm`, `FMPS.dAdtFull_project`, `FMPS.dAdtFull_tdvp`, `FMPS.dAdt_best`, `FMPS.dAdt_best_all`, `FMPS.dAdt_energy`, `FMPS.dAdt_exact`, `FMPS.dAdt_extract`, `FMPS.dAdt_gauge`, `FMPS.dAdt_leftCanonicalise`, `FMPS.dAdt_line`, `FMPS.dAdt_line_energy`, `FMPS.dAdt_norm`, `FMPS.dAdt_not_gauge`, `FMPS.dAdt_project`, `FMPS.dAdt_project_all`, `FMPS.dAdt_tdvp`, `FMPS.deserializeReal_serializeReal`, `FMPS.deserializeReal_standard`, `FMPS.deserialize_nonstandard`, `FMPS.deserialize_serialize`, `FMPS.deserialize_standard`, `FMPS.energyStep_direction`, `FMPS.energy_diag_partial`, `FMPS.energy_leftCanonicalise`, `FMPS.energy_rightCanonicalise`, `FMPS.energy_wrong`, `FMPS.entanglementEntropy_spec`, `FMPS.exGap_jac`, `FMPS.expandPad_spec`, `FMPS.expand_raises`, `FMPS.expand_spec`, `FMPS.extract_import`, `FMPS.extract_isometry`, `FMPS.f1_dim`, `FMPS.f1_lt`, `FMPS.f1_real_partial`, `FMPS.f2_extract`, `FMPS.f2_normalised`, `FMPS.f2_same`, `FMPS.f2_spec`, `FMPS.fromProductState_state`, `FMPS.fullEnvs_leftCanonicalise`, `FMPS.fullOverlap_inner`, `FMPS.getEnvs_diag_partial`, `FMPS.getEnvs_loses`, `FMPS.history_partial`, `FMPS.import_extract`, `FMPS.import_isometry`, `FMPS.import_raises`, `FMPS.jacFixed_none`, `FMPS.jacHalves_real`, `FMPS.jac_exact`, `FMPS.jac_fixed`, `FMPS.jac_gap`, `FMPS.jac_hamiltonian`, `FMPS.jac_parts_sym`, `FMPS.jac_projection`, `FMPS.jac_real`, `FMPS.jac_run`, `FMPS.jac_spectrum`, `FMPS.joinReal_serializeReal`, `FMPS.kLocal_full`, `FMPS.kLocal_nan`, `FMPS.kLocal_none`, `FMPS.kLocal_product`, `FMPS.kLocal_unit`, `FMPS.leftCanonicalise_not_preserved`, `FMPS.leftCanonicalise_passes`, `FMPS.leftCanonicalise_spec`, `FMPS.leftCanonicalise_sweep`, `FMPS.leftFromState_spec`, `FMPS.leftOrthogonalise_spec`, `FMPS.leftTransfer_comp`, `FMPS.leftTransfer_spec`, `FMPS.load_other_name`, `FMPS.load_store`, `FMPS.load_store_fails`, `FMPS.load_store_structured`, `FMPS.localOverlap_product`, `FMPS.localOverlap_product_right`, `FMPS.localOverlap_spec`, `FMPS.localOverlap_wrong`, `FMPS.lyapunov_sum`, `FMPS.matchGaugeTo_spec`, `FMPS.mixedCanonicalise_spec`, `FMPS.mixedCanonicalise_stale`, `FMPS.mixedOrthogonalise_norm_lost`, `FMPS.mixedOrthogonalise_spec`, `FMPS.mpsPad_spec`, `FMPS.mpsPad_stale_D`, `FMPS.mulItem_state`, `FMPS.mul_state`, `FMPS.norm_real_nonneg`, `FMPS.overlap_inner`, `FMPS.overlap_length`, `FMPS.overlap_ne_fullOverlap`, `FMPS.overlap_star_fullOverlap_partial`, `FMPS.postSelect_data_partial`, `FMPS.postSelect_recombine_wrong`, `FMPS.postSelect_stale`, `FMPS.productStateOverlap_spec`, `FMPS.randomWithEnergy_cases`, `FMPS.randomWithEnergy_endless`, `FMPS.randomWithEnergy_identity`, `FMPS.randomWithEnergy_raises`, `FMPS.randomWithEnergy_unreachable`, `FMPS.random_chain`, `FMPS.random_one_site`, `FMPS.random_product`, `FMPS.random_product_wrong`, `FMPS.random_real`, `FMPS.random_stale`, `FMPS.recombine_amplitudes`, `FMPS.rhoFull_spec`, `FMPS.rhoProj_exact`, `FMPS.rhoProj_none`, `FMPS.rhoProj_real_partial`, `FMPS.rhoProj_wrong`, `FMPS.rhoString_spec`, `FMPS.rho_trace`, `FMPS.rightCanonicalise_passes`, `FMPS.rightCanonicalise_spec`, `FMPS.rightCanonicalise_sweep`, `FMPS.rightFromState_spec`, `FMPS.rightOrthogonalise_spec`, `FMPS.rightTransferOne_eq`, `FMPS.rightTransfer_real_partial`, `FMPS.rightTransfer_shift`, `FMPS.rightTransfer_swaps`, `FMPS.sub_state_partial`, `FMPS.tangentSpaceBasis_eye`, `FMPS.tangentSpaceBasis_ortho`, `FMPS.tangentSpaceDims_spec`, `FMPS.tangentState_raises`, `FMPS.tangentState_spec`, `FMPS.truediv_state`, `FMPS.tsInt_symplectic`, `FPEPS.R_centre`, `FPEPS.R_centre_outside`, `FPEPS.R_reflection`, `FPEPS.T_reflection`, `FPEPS.U_centre`, `FPEPS.U_reflection`, `FPEPS.add_eq_partial`, `FPEPS.add_not_peps`, `FPEPS.add_raises`, `FPEPS.apply_eq`, `FPEPS.colContract_ok`, `FPEPS.contract_ok`, `FPEPS.createStructure_eq`, `FPEPS.eq_common`, `FPEPS.eq_rows`, `FPEPS.eq_same_size`, `FPEPS.expK_eq`, `FPEPS.expK_full_width`, `FPEPS.expK_not_reading`, `FPEPS.expK_reading_partial`, `FPEPS.expval_eq`, `FPEPS.expval_red`, `FPEPS.factors_closest`, `FPEPS.fixNeighbours_fits`, `FPEPS.fixNeighbours_same`, `FPEPS.fixNeighbours_spec`, `FPEPS.fixNeighbours_tall`, `FPEPS.fixNeighbours_wide`, `FPEPS.fromMpsLx_drops`, `FPEPS.fromMpsSq_eq`, `FPEPS.fromMps_column`, `FPEPS.fromMps_eq`, `FPEPS.fromMps_recombine`, `FPEPS.fullOverlap_eq`, `FPEPS.fullOverlap_overlap`, `FPEPS.isoEAt_eq`, `FPEPS.isoE_eq_expval`, `FPEPS.isoE_off_centre`, `FPEPS.iso_braket`, `FPEPS.iso_norm`, `FPEPS.isometrise_assert`, `FPEPS.isometrise_constructed`, `FPEPS.isometrise_isometric`, `FPEPS.isometrise_rect`, `FPEPS.mosesRight_error`, `FPEPS.mosesTo_error`, `FPEPS.norm_eq`, `FPEPS.normalise_norm`, `FPEPS.normalise_product`, `FPEPS.overlap_conj`, `FPEPS.overlap_eq`, `FPEPS.overlap_single_column`, `FPEPS.pepsAmp_tR`, `FPEPS.pepsAmp_tT`, `FPEPS.pepsAmp_tU`, `FPEPS.random_isometrise`, `FPEPS.recombineSnake_eq_partial`, `FPEPS.recombineSnake_twist`, `FPEPS.recombineSnake_wrong`, `FPEPS.recombine_eq`, `FPEPS.rhoProj_ok`, `FPEPS.rhoProj_wrong`, `FPEPS.rho_eq`, `FPEPS.rho_expval`, `FPEPS.rowContract_ok`, `FPEPS.siteRed_product`, `Gates.CRy_group`, `Gates.CZ_CNOT_involutions`, `Gates.CZ_swap`, `Gates.controlled`, `Gates.deembed_embed`, `Gates.embed_unitary`, `Gates.isSwapSymmetric_iff`, `Gates.nullRow_exists`, `Gates.swapAntisymmetrise_wrong`, `Gates.swapSymmetrise_eq_iff`, `Gates.swapSymmetrise_idem`, `Gates.swapSymmetrise_symm`, `Gates.swap_kron`, `Gates.swap_mul_swap`, `Ham.init_field`, `Ham.toFull_matrices`, `Ham.toFull_partial`, `Ham.toFull_small`, `Ham.toFull_strings`, `Ham.toFull_two`, `Ham.toFull_two_wrong`, `Ham.toMpo_eq_toFull`, `Ham.toMpo_raises`, `Ham.toMpo_spec`, `IMPS.E_left`, `IMPS.E_mixed`, `IMPS.E_right`, `IMPS.E_transposed`, `IMPS.E_vidal`, `IMPS.Lh_not_sum`, `IMPS.Lh_ok`, `IMPS.Lh_series_partial`, `IMPS.Rh_not_sum`, `IMPS.Rh_ok`, `IMPS.Rh_series_partial`, `IMPS.canonicalise_left`, `IMPS.canonicalise_mixed`, `IMPS.canonicalise_right`, `IMPS.dAdt_not_tdvp`, `IMPS.dAdt_tdvp_partial`, `IMPS.dAdt_window_partial`, `IMPS.eigs_ok`, `IMPS.energy_eq`, `IMPS.energy_ok_partial`, `IMPS.energy_wrong`, `IMPS.findGround_progress`, `IMPS.findGround_size`, `IMPS.findGround_small`, `IMPS.findGround_spec`, `IMPS.findGround_zero`, `IMPS.fixLaw_exists`, `IMPS.infExpect_identity`, `IMPS.infExpect_scale`, `IMPS.leftCanon_round`, `IMPS.leftFixedPoint_nan`, `IMPS.lmixed_fixed`, `IMPS.lmixed_spec`, `IMPS.mixed_not_normalised`, `IMPS.mixed_spec`, `IMPS.overlap_spec`, `IMPS.rmixed_spec`, `IMPS.step_norm`, `IMPS.tangent_energy`, `ITdvp.euler_norm`, `ITdvp.eulerint_progress`, `ITdvp.eulerint_spec`, `ITdvp.integrate_short`, `ITdvp.integrate_spec`, `ITdvp.integrate_times`, `ITdvp.loschmidts_spec`, `ITdvp.rk4_step`, `ITdvp.rk4int_spec`, `IvMPS.E_not_expectation`, `IvMPS.E_symmetric_partial`, `IvMPS.E_transpose`, `IvMPS.canonicalise_ok`, `IvMPS.canonicalise_spec`, `IvMPS.randomL_spec`, `IvMPS.random_spec`, `IvMPS.transferMatrix_period`, `IvMPS.transferMatrix_spec`, `LeftLoop.ltInner_eq`, `LeftLoop.lt_eq`, `LeftLoop.lt_eq_inner`, `LeftLoop.lt_spec`, `Ncon.ncon_check_exact`, `Ncon.ncon_check_irrelevant`, `Ncon.ncon_einsum`, `Ncon.ncon_einsum_default`, `Ncon.ncon_order_independent`, `Ncon.ncon_order_unchanged_iff_partial`, `Ncon.ncon_repeat_raises`, `Ncon.ncon_single`, `ProjHam.energy_mixed`, `ProjHam.energy_mixed_partial`, `ProjHam.heis_sum`, `ProjHam.heis_wrong`, `ProjHam.iHeis_sum`, `ProjHam.iIsin_sum`, `ProjHam.iOptimise_product`, `ProjHam.iOptimise_spec`, `ProjHam.iOptimise_wrong`, `ProjHam.isin_one`, `ProjHam.isin_sum`, `ProjHam.isin_three`, `ProjHam.isin_two`, `ProjHam.isin_wrong`, `ProjHam.optStep_up`, `ProjHam.optimise_identity`, `ProjHam.optimise_other`, `ProjHam.optimise_spec`, `ProjHam.optimise_value`, `ProjMpo.anisotropicHeisenberg_one`, `ProjMpo.anisotropicHeisenberg_spec`, `ProjMpo.asmatrix_last`, `ProjMpo.asmatrix_spec`, `ProjMpo.asmatrix_wrong`, `ProjMpo.getEnvs_ok`, `ProjMpo.mv_first`, `ProjMpo.mv_spec`, `ProjMpo.mv_wrong`, `Qmb.anisotropicHeisenbergFull_spec`, `Qmb.localHeisenbergs_one`, `Qmb.localHeisenbergs_spec`, `Qmb.localIsing_spec`, `Qmb.localIsings_spec`, `Qmb.localXX_spec`, `Qmb.localXX_wrong`, `Qmb.pairTerm_ok`, `Qmb.sNBody_high`, `Qmb.sNBody_low`, `Qmb.sNBody_spec`, `Spec.FixedPoints.injective`, `Spec.SchmidtAt.perm`, `Spec.SchmidtAt.sum_eq`, `Spec.SchmidtAt.sum_norm`, `Spin.CR_spins`, `Spin.CR_wrong`, `Spin.SU2N_spec`, `Spin.SU4_special`, `Spin.SU8_special`, `Spin.SU_insu2N`, `Spin.SU_special`, `Spin.SU_surjective`, `Spin.U4_special`, `Spin.U4s_special`, `Spin.U4s_surjective`, `Spin.antiferro_pauli`, `Spin.checkCR_iff`, `Spin.checkCR_of_rel`, `Spin.equalUpToPhase_iff_partial`, `Spin.equalUpToPhase_misses`, `Spin.equalUpToPhase_sound`, `Spin.expGen_length`, `Spin.expGen_special`, `Spin.extractv_spec`, `Spin.ferro_not_pauli`, `Spin.ferro_partial`, `Spin.insu2N_length`, `Spin.insu2N_mid_raises`, `Spin.insu2N_spec`, `Spin.ladders_eq`, `Spin.ladders_order`, `Spin.lambdas_basis`, `Spin.lambdas_hermitian_traceless`, `Spin.lambdas_norm`, `Spin.lambdas_orthogonal`, `Spin.leviCivita_perm`, `Spin.leviCivita_repeat`, `Spin.leviCivita_swap`, `Spin.logLaw_exists`, `Spin.nBody_commute`, `Spin.nBody_d`, `Spin.nBody_low`, `Spin.nBody_mul`, `Spin.nBody_spec`, `Spin.nsphere_norm`, `Spin.pCR_paulis`, `Spin.pCR_spins`, `Spin.paulis_eq`, `Spin.slambdas_basis`, `Spin.slambdas_closed`, `Spin.slambdas_hermitian_traceless`, `Spin.slambdas_swap`, `Spin.spins_casimir`, `Spin.spins_comm`, `Spin.spins_hermitian`, `Spin.su_complete`, `Spin.su_components`, `Spin.su_hermitian_traceless`, `Spin.su_length`, `Spin.su_norm`, `Spin.su_orthogonal`, `Spin.toNewV_spec`, `SvdRobust.svd_default`, `SvdRobust.svd_gesvd`, `SvdRobust.svd_invalid`, `SvdRobust.svd_law`, `SvdRobust.svd_law_iff`, `SvdRobust.svd_linAlgError`, `TFD.E_double`, `TFD.E_spec`, `TFD.Es_spec`, `TFD.dAdt_eq`, `TFD.dAdt_wrong`, `TFD.fs_raises`, `TFD.fs_spec`, `TFD.random_mixed`, `TFD.random_mixed_one`, `TFD.random_one_site`, `TFD.random_pure`, `TFD.random_pure_wrong`, `TFD.splitVL_raises`, `TFD.splitVL_spec`, `TFD.symmAsymm_ok`, `TFD.symmAsymm_one`, `TFD.symmAsymm_projectors`, `TFD.symmAsymm_wrong`, `TMap.asmatrix_ok`, `TMap.leftFixedPoint_ok`, `TMap.mv_spec`, `TMap.mvr_spec`, `Tdvp.bell_fails`, `Tdvp.edEnergy_eq_energy`, `Tdvp.edOtoc_nonneg`, `Tdvp.edOtoc_refuses`, `Tdvp.edOtoc_spec`, `Tdvp.edint_conserves`, `Tdvp.edint_full`, `Tdvp.edint_noterms`, `Tdvp.edint_short`, `Tdvp.edint_terms`, `Tdvp.edint_times`, `Tdvp.edint_uneven`, `Tdvp.entropy_chain`, `Tdvp.euler_scheme`, `Tdvp.evolve_schroedinger`, `Tdvp.evolve_zero`, `Tdvp.loschmidt_bounds`, `Tdvp.loschmidt_ed`, `Tdvp.loschmidt_expand_fails`, `Tdvp.loschmidt_hist`, `Tdvp.lyapunovMax_spec`, `Tdvp.lyapunovMax_total`, `Tdvp.lyapunov_ragged`, `Tdvp.lyapunov_spec`, `Tdvp.lyapunov_total`, `Tdvp.matrix_eq_toFull`, `Tdvp.mpsEnergies_hist`, `Tdvp.mpsEvs_hist`, `Tdvp.mpsListEd_length`, `Tdvp.mpsList_clear_fails`, `Tdvp.mpsList_run`, `Tdvp.mpsList_run_clear`, `Tdvp.mpsOTOC_name`, `Tdvp.mpsOTOC_ok`, `Tdvp.mpsOTOC_steps`, `Tdvp.mpsOTOC_wrong`, `Tdvp.otocEntry_range`, `Tdvp.renyi_hist`, `Tdvp.renyi_one`, `Tdvp.rk4_linear`, `Tdvp.rk4_order`, `Tdvp.rk4_scalar`, `Tdvp.rk4_scheme`, `Tdvp.rk4i_scalar`, `Tdvp.rk4i_scheme`, `Tdvp.rk4i_wrong`, `Tdvp.schmidts_ed`, `Tdvp.schmidts_hist`, `Tdvp.stopDir_next`, `Tdvp.stops_eleven`, `Tdvp.stops_other`, `Tdvp.stops_ten`, `Tdvp.tsInt_spec`, `Tdvp.vonNeumann_ed`, `Tdvp.vonNeumann_ed_strict_fails`, `Tdvp.vonNeumann_hist`, `Tdvp.vonNeumann_strict_fails`, `Tdvp.vonNeumann_strict_zero`, `TensorMisc.directSum_square`, `TensorMisc.directSum_wrong`, `TensorMisc.getNullSpace_spec`, `TensorMisc.haarUnitary_unitary`, `TensorMisc.trSvd_spec`, `TransferMatrix.asmatrix_ok`, `TransferMatrix.mv_spec`, `TransferMatrix.mvr_not_adjoint`, `TransferMatrix.mvr_partial`, `TransferMatrix.mvr_transposed`, `VFMPS.roundTrip`, `alias_changes`, `applyTwoSite_refines`, `apply_new`, `call_frame`, `changebasis_perm`, `changebasis_sympmat`, `cholLaw_exists`, `copies_independent`, `deembed_embed`, `dynamicalExpand_zz`, `embed_spec`, `exFlip_exact`, `exGap_wrong`, `exQ_closed`, `exQ_stale`, `exScaled_wrong`, `exTwist_wrong`, `factors_even`, `factors_not_recovered`, `factors_square`, `flipF1_flipF1`, `flipF2_flipF2`, `fromFMPS_amplitude`, `fromFMPS_symmetric`, `groupLegs_entries`, `grow_eigenstate`, `grow_phase`, `grow_zz`, `hasTrace1_spec`, `history_frame`, `inverseTranspose_spec`, `isFullRank_spec`, `isLeftCanonical_iff`, `isLeftCanonical_spec`, `isLeftEnvCanonical_last`, `isLeftEnvCanonical_partial`, `isRightCanonical_iff`, `isRightCanonical_spec`, `isRightEnvCanonical_last`, `isRightEnvCanonical_partial`, `kron_loc`, `leadingLaw_exists`, `nullLaw_exists`, `orthogonalise_refines`, `partialTrace_entries`, `polarLaw_exists`, `projectionError_exact`, `projectionError_ok_partial`, `projectionError_pair`, `projectionError_raises`, `projector_ok`, `qrLaw_exists`, `reachable_separate`, `rhoA_entries`, `rhoA_eq_partialTrace`, `rhoA_hermitian`, `rhoA_nil`, `rhoA_out_of_range`, `rhoA_trace`, `rqLaw_exists`, `rqUpper_exists`, `schmidt_rank_bond`, `shannon_eq_zero`, `shannon_le_log`, `shouldExpand_iff`, `simpleRight_of_left`, `splitUp3_kron`, `splitUp3_wrong`, `splitUp_kron`, `symmetrise_symmetric`, `symmetry_exchanges`, `symmetry_involution`, `sympmat_orthogonal`, `sympmat_sq`, `sympmat_transpose`, `trajExpand_own`, `ungroup_group`, `unitaryExtension_spec`, `uqr_degenerate`, `uqr_fact`, `uqr_unique`, `urq_fact`, `weights_sum`

**propext** (4): `FMPS.bondAt_ends`, `FMPS.createStructure_one`, `Tdvp.stopDir_fresh`, `splitUp_rectangular_raises`

**propext, Quot.sound** (4): `FMPS.call_shifted`, `FMPS.constructor_holds`, `Spin.nBody_high`, `ungroupLegs_rank`

**none** (3): `Cache.christoffel_collision`, `Cache.run_collision`, `Cache.run_collision'`
