# Formal model of xmps

Subject: `fergusbarratt/xmps` (Python), read as text in `/repo`.  Nothing was run.
Model and proofs: Lean 4.33.0 + Mathlib, Lake project in `/verif/lean`.
This file is written by `tools/design.py` from `tools/design_head.md`, `tools/how.json`, the manifest and the output of `#print axioms`.

## Modelling decisions

* **Numbers.** Array entries are elements of a commutative (star) ring; where the code takes real
  parts, square roots or norms the ring is `ℂ` (or `ℝ`).  Floating point rounding, overflow, NaN and
  dtypes are not modelled.
* **Arrays.** A numpy array is a shape (a list of naturals) plus an entry function on index lists
  (`ND`).  Two arrays are "array_equal" (`≈`) when shapes agree and the entries agree at all
  in-bounds indices.  Views/aliasing are modelled only where a property is about them (C40, C04).
* **Exceptions** are values: a model function returns `Except PyErr α`; each place where numpy or the
  code raises is an `.error` branch.  A theorem that a call "returns x" says the result is `.ok x`.
* **Loops.** `for` loops are folds, `while` loops are recursions with explicit fuel; running out of
  fuel is the error `diverges`, and the theorems show that it does not occur (or, for the iterations of
  `iMPS.mixed`, say what holds when it does not).
* **Sets.** The iteration/pop order of Python sets is a parameter (any choice function); theorems
  hold for every choice.
* **Objects.** A class instance is a record of its attributes; methods that change the receiver return
  the changed record.  Attributes that a method forgets to update stay as they were (this is how stale
  `L`, `D`, `is_left_canonical` … are found).
* **External numerics** (SVD, QR, RQ, eig, polar, null_space, Cholesky, inverse, ARPACK) are parameters
  with a contract.  The contracts are part of the trusted base below.
* **Sites** are natural numbers; Python's negative indices are modelled only where the code relies on them.

## Layout

* `Verif/Base/*`   Python/numpy primitives and lemmas about them.
* `Verif/Model/*`  the code, function by function, each definition citing file and lines.
* `Verif/Spec/*`   small specifications, independent of the model, and the contracts of external numerics.
* `Verif/Lemmas/*` supporting proofs.
* `Verif/Props/*`  property theorems with their `example`s.

## Trusted base

1. The Lean 4.33.0 kernel and the axioms `propext`, `Classical.choice`, `Quot.sound`.  The appendix lists
   the axioms of every theorem in the manifest.  There are no own axioms, no `sorry`, no `native_decide`.
2. The correspondence between the Python text and the definitions in `Verif/Model` (each cites its lines).
3. The numpy semantics in `Verif/Base`: `transpose`, `reshape` (row major), `tensordot`, `einsum`, `trace`,
   `swapaxes`, `@`, `kron`, `pad`, `concatenate`, slicing as far as the code uses them, with their `ValueError`s.
4. The contracts of the external numerics.  Every contract is a definition in `Verif/Spec` (or next to its
   theorem), and for every contract there is a theorem that a function satisfying it exists, so no theorem is vacuous:

| contract | stands for | assumed | satisfiable by |
|----------|-----------|---------|----------------|
| `QRLaw`, `RQLaw` | `scipy.linalg.qr/rq(mode='economic')` | factors multiply back, isometry, shapes, `R` upper triangular | `qrLaw_exists`, `rqLaw_exists` |
| `QRFullLaw` | `scipy.linalg.qr` (full) | unitary `Q`, `R` upper triangular, `A = Q R` | `TensorMisc.qrFullLaw_exists` |
| `RQUpper` | `rq` of a square matrix | moreover the triangular factor is upper triangular | `rqUpper_exists` |
| `SVDLaw` | `svd_robust.svd(full_matrices=False)` | factors multiply back, isometries, values decreasing and ≥ 0 | `svdLaw_exists` |
| `EigLaw` | `numpy.linalg.eig` | independent unit eigenvectors | `eigLaw_exists` |
| `EigOrthoLaw` | `numpy.linalg.eig` on positive semidefinite matrices | **more than numpy documents**: orthonormal eigenvectors, zero eigenvalues last | `eigOrthoLaw_exists` |
| `NullLaw`, `NullRow` | `scipy.linalg.null_space` | orthonormal basis of the kernel, no rank tolerance | `nullLaw_exists`, `nullRow_exists` |
| `PolarLaw` | `scipy.linalg.polar` | unitary times positive semidefinite | `polarLaw_exists` |
| `InvLaw` | `numpy.linalg.inv` | exact inverse of an invertible matrix | `invLaw_exists` |
| `LogLaw` | `scipy.linalg.logm` on unitary matrices | skew-Hermitian, exponential is the argument | `logLaw_exists` |
| `CholLaw`, `CholTriLaw` | `cholesky` | `X X† = M` for positive definite `M` (lower triangular, positive diagonal) | `cholLaw_exists`, `cholTriLaw_exists` |
| `LeadingLaw` | `scipy.sparse.linalg.eigs(k=1)` on an operator with more than two rows | an eigenvalue of largest modulus and a unit eigenvector | `leadingLaw_exists` |
| `RootLaw` | `scipy.optimize.root` on functions of complex `D × D` matrices | a root is found if there is one | `rootLaw_exists` |
| `ArnLaw` | `scipy.sparse.linalg.eigs(M, k=1, which='LM')` in `r_eigenmatrix`, `l_eigenmatrix`, `direct_sum`, `haar_unitary`, `tr_svd`, `get_null_space` | for a transfer matrix with positive definite fixed points of a simple eigenvalue: that eigenvalue and a multiple of its eigenvector, with a phase that is not purely imaginary | `arnLaw_exists` |
| `FixLaw` | `TransferMatrix.eigs` in `find_ground_state` and `iTDVP.py` | where it returns: positive definite fixed points of a simple eigenvalue, the trace of the product one | `fixLaw_exists` |
| eigensolver of `TransferMatrix.eigs` | `scipy.sparse.linalg.eigs(k=1)` | returns some multiple of the leading fixed points | `eigs_ok` and witnesses |

   Objects are values in all models but `Model/Heap`, where arrays, lists and objects have addresses: there every result of a `numpy` or
   `scipy` call is a new array (views of a new array count as new), and only `/=` writes into an existing one.
   `scipy.linalg.expm`, `scipy.sparse.linalg.expm_multiply` are the exact matrix exponential.
   `numpy.sign` of a complex number is that of numpy 1 (sign of the real part) — it matters for `uqr`.
   `qutip` operators are their matrices: `tensor` is the Kronecker product, `*` the matrix product, `op**n` for `n` 0 or 1 the identity or the operator,
   `.full()` the array; `pymps` in `projects/` is this package.
   `int(n**0.5)` is the exact integer square root.  `log` of a weight is the real logarithm.

## What is modelled and what is not

| file | modelled | not modelled |
|------|----------|--------------|
| `ncon.py` | all functions | other tensor classes (the `AttributeError` branches), message texts |
| `tensor.py` | `embed`, `deembed`, `uqr`, `urq`, `unitary_extension`, `ρA`, `partial_trace`, `truncate_A/B`, `diagonalise`, `rotate_to_hermitian`, `rank`, `mps_pad`, `loc`, `loc_3`, `split_up`, `split_up_3`, `r_eigenmatrix`, `l_eigenmatrix`, `direct_sum`, `haar_unitary`, `tr_svd`, `get_null_space` | `lanczos_expm`, `ldot`/`rdot` on their own, `basis_iterator` |
| `fMPS.py` `fMPS` | constructor, `==`, arithmetic, `apply`, `post_select`, two-site gates, `apply_two_site_isometry`, `random`, `random_with_energy_E`, `recombine`, `left/right_from_state`, `create_structure`, orthogonalisations, canonicalisations, entropies, overlaps, environments, transfers, expectation values, `energy`, serialisation and files, padding, `expand`, `match_gauge_to`, `left_null_projector`, `dA_dt` (list of two-site terms and `fullH`), `tangent_state`, `tangent_space_dims`, `tangent_space_basis`, `extract/import_tangent_vector`, `F1`, `F2` (list of two-site terms), `christoffel` (no tensors, or one for the third site), `projection_error`, `should_expand`, `dynamical_expand`, `grow`, `right_null_projector`, `jac` (`as_matrix=True`), caches of `F1`, `F2`, `christoffel`, sharing of lists and arrays between objects | `ddA_dt`, `christoffel` with other tensors, `F1`/`F2` with `fullH` or `testing`, printing |
| `fMPS.py` `fTFD`, `vfMPS` | `from_fMPS`, `random`, `symmetry`, `symmetrise`, `symm_asymm`, `fs`, `get_vL` (null vectors a parameter), `E`, `Es`, `dA_dt`; the Vidal form round trip | `add` (the text of `fMPS.add`), `local_overlap` (always raises `TypeError`), the rest of `fTFD` |
| `iMPS.py` | `Map`, `TransferMatrix`, `canonicalise`, `mixed`, `E`, `energy`, `left_fixed_point`, `overlap` (one tensor per unit cell), indexing, (de)serialisation and files of unit cells, `Lh`, `Rh`, `left_null_projector`, `dA_dt`, `ivMPS.random`, `ivMPS.transfer_matrix`, `ivMPS.canonicalise`, `ivMPS.to_iMPS`, `ivMPS.E` (one pair per unit cell) | ARPACK itself, `update`, larger unit cells |
| `fPEPS.py` | `fMPO` products, `random`, `trivial`, rotations, `fPEPS` construction, `T`, `R`, `U`, `overlap`, `norm`, `apply`, `E`, `normalise`, `add`, `recombine`, `full_overlap`, `from_mps`, `contract`, `E_k`, `rho`, `rho_proj`, `create_structure`, `random` (entries a parameter), `fix_neighbours`, `==`, truncations used by `isometrise`, `isometrise`, `iso_E`, `iso_Es`, `factors`, moses moves up to `U2` | `environment`, what follows `U2`; the object left behind when `isometrise` raises |
| `peps_tools.py` | `group_legs`, `ungroup_legs`, `inverse_transpose`, `E2`, `renyi`, `renyi_2_disentangler` | `U2` (does nothing), printing |
| `spin.py` | gates, `levi_civita`, `n_body`, `spins`, `ladders`, `paulis`, `su`, `components`, `Nsphere`, swap tools, `lambdas`, `slambdas`, `antiferro`, `ferro`, `SU`, `SU4`, `SU8`, `U4`, `U4s`, `insu2N`, `extractv`, `to_new_v`, `equal_up_to_phase`, `CR`, `pCR` | `U1`, `U2` (always raise), `spinHamiltonians` (a function that returns `None`) |
| `Hamiltonians.py` | `__init__`, `to_matrices`, `to_mpo`, `to_full`, `to_matrix` | `from_matrix`, printing |
| `fTDVP.py`, `iTDVP.py` | `euler`, `rk4`, trajectory bookkeeping, run directories, exact diagonalisation (`edint`, `ed_evs`, `ed_energies`, `ed_OTOC`), `schmidts`, `von_neumann`, `renyi`, `loschmidt`, `mps_evs`, `mps_energies`, `lyapunov`, `mps_OTOC`, `ts_int` (the step to the next state is a parameter); of `iTDVP.py` also `eulerint`, `rk4int`, `loschmidts` | integration with the inversefree integrators, `lyapunov2`, `odeint`, plotting |
| `mps_examples.py` | `bell`, `comp_z`, `comp_x`, `i_comp_z`, `i_cat`, `AKLT` | – |
| `tests.py` | all predicates | – |
| `qmb.py` | `S_n_body`, `anisotropic_heisenberg`, `local_anisotropic_heisenbergs`, `local_ising`, `local_isings`, `local_XX` | `anisotropic_heisenberg_mpo` (undefined names) |
| `projects/fMPO.py` | `anisotropic_heisenberg`, environments, `get_envs`, `effH` | `DMRG` sweeps and `optimize`, sparse eigensolver |
| `projects/fHam.py`, `projects/iHam.py` | `heis`, `isin`, `optimise` of `fHam.py`; `optimise` of `iHam.py` with `method='euler'` | `optimise` of `iHam.py` with other methods |
| `svd_robust.py` | `svd` | `svd_gesvd` and loading LAPACK (scipy before 0.18) |
| `iOptimize.py` | `find_ground_state` (matrices `H` with one two-site term) | the progress bar |
| `left_transfer.pyx` | `lt` | C integers that overflow |
| the other `projects/*` | – | all |

## Where the code does not do what is claimed

Each item is a theorem (the negation, with a concrete witness) unless marked *(read)*, which means seen in the text only.

1. `ncon` extends the caller's `order` list on every disconnected network, so the repeated call raises (C04).
2. `ρA(u, [], dims)` returns something other than the squared norm (C06).
3. `split_up(H)` with `d=None` raises `TypeError`; `split_up_3` is wrong for `d ≥ 3` (C07).
4. `fMPS.add` on one site drops the other summand (C09).
5. `apply_two_site` sorts the sites, so a gate on `(1, 0)` acts as on `(0, 1)`; it leaves flags stale (C12, C24).
6. `post_select` does not update `L`; `recombine` then returns an array of the wrong rank (C13).
7. `overlap` and `full_overlap` are complex conjugates of each other (C14).
8. `mixed_orthogonalise(0)` loses the norm (C15).
9. `left_canonicalise` can return the zero state when `eig` does not order its eigenvalues (C16).
10. `create_structure(1, …)` raises `IndexError` (C19).
11. `deserialize` without a structure is wrong for non-standard bonds (C20); `load` fails for names without `.npy` (C21).
12. `E` and `E_` use the transposed operator (C23); the same in `fTFD.E/Es` (C59) and `iMPS.E(op, 'r'/'l'/'m')` (C61).
13. `mixed_canonicalise` records the wrong centre (C24).
14. `Hamiltonian(strings).to_full(L)` raises `AttributeError`; on two sites fields are halved; coefficients below 1e-8 vanish (C26).
15. `n_body(op, i, n)` with `i ≤ 0` returns the identity; with `d` given the chain has `n+1` sites (C28).
16. `paulis` ignores its argument; `ladders` returns the lowering operator first (C29).
17. `TransferMatrix.mvr` is the transpose, not the adjoint (C33).
18. Cache keys of `F1`/`F2` collide from 12 sites on; `christoffel` caches a value without its change of basis (C34).
19. `mps_list()` fails after `clear` when the bond dimension changed (C35).
20. `iTDVP.rk4` multiplies by `dt` once too often in the third stage (C36, and C129 `ITdvp.rk4_step`).
21. `right_transfer` exchanges indices at every site, is shifted by one and with `ret_all=False` returns its input; `get_envs` loses off-diagonal entries (C41).
22. `fMPO.recombine` raises on one site and returns the conjugate transpose (C42).
23. `iMPS.canonicalise('m')` is not normalised (C46); `iMPS.energy` pairs with the transposed fixed point and is not divided by the eigenvalue squared (C62).
24. Run numbers repeat from the eleventh run on (C47).
25. `swap_antisymmetrise` is not the antisymmetriser (C52).
26. `energy` is wrong on chains that have not been canonicalised (C55).
27. `is_right_env_canonical`/`is_left_env_canonical` never look at the last tensor (C56).
28. `uqr` of a rank deficient matrix is not an isometry (C58).
29. PEPS: after `R`, `U` the recorded centre is wrong on grids that are not square (C38); a single column makes `overlap`, `norm`, `E` raise (C60).
30. `vfMPS` stores squared Schmidt coefficients (C50).
31. `import_tangent_vector` raises when a site without tangent vectors is not at the start of the chain (C49); `tangent_state(X, n)` without `vL`
    always raises: its conditional expression is parsed as a tuple (C65).
32. `fMPS(x.data)` is not a copy: it shares the list with `x` (C40; documented nowhere, `copy()` is safe).
33. `ferro()` is not an SU(2) spinor: `m_z` is half of what the relations require (C69).
34. `equal_up_to_phase` tells matrices apart that differ by a phase if their top left entry is zero (C71).
35. *(read)* `U1`, `U2` subscript the function `locals` and always raise `TypeError`; `spinHamiltonians` is a function, not a class.
36. *(read)* `fTFD.local_overlap` raises `TypeError`; `fTFD.Es` keeps complex values; `vfMPS.__init__` with data does not store it;
    `fMPO().trivial` does not set `L`; `fPEPS.col_mpos(other)` ignores `other`; `fPEPS.copy(data)` ignores `data`;
    `rotate_to_hermitian` fails when the first entry is purely imaginary; `iMPS.right_null_projector` raises `NameError`;
    `_lmixed` divides the caller's `L0` in place; `hand is 'r'` compares identities.
37. `edint` uses `T[1]-T[0]` as the step for the whole list: with unequally spaced times the entries are not the states at `T[k]`; it raises
    `IndexError` for fewer than two times and `ValueError` for a chain of one site (C72).  `ed_OTOC` also raises for one time (C73).
38. `mps_list()` after `edint` returns at most one state (C35).
39. `fMPS.__call__` and `iMPS.__call__`, documented as 1-based, return `data[k+1]` (C76).
40. `Map.left_fixed_point`, and with it `iMPS.overlap`, is `nan` when the first entry of the leading eigenvector is zero (C75).
41. *(read)* scipy's `eigs` refuses operators with fewer than three rows: everything that needs the fixed points of an `iMPS` of bond dimension one
    raises.  The theorems on `canonicalise` hold for `D = 1` with an eigensolver that returns; the witnesses have `D = 2`.
42. `iMPS.store(f)` and `load(f)` disagree on the name unless it ends in `.npy` (C74), as for `fMPS` (C21).
43. The docstring of `comp_x` has the states 2 and 3 exchanged (C77).
44. `AKLT()` is not the AKLT state: the middle matrix has the factor `sqrt(1/2)/2` instead of `sqrt(1/3)` (C78).
45. On a chain whose environments are not diagonal `dA_dt` returns a tensor that is not in the left gauge, because `get_envs` keeps only the diagonals
    of the environments (C48, `dAdt_not_gauge`): the tangent vector has a component along the state.
46. `iMPS.Lh` carries its terms with `Σ A_s† K A_s` although the first index of `K` is that of the ket; for complex tensors it is not the sum of the
    terms (C79, `Lh_not_sum`), and `iMPS.dA_dt` is then not the TDVP tangent vector (C80, `dAdt_not_tdvp`).
47. `iMPS.Rh` has `r` twice in its right-hand side, so the terms are closed with `r rᵀ` instead of `r` (C81, `Rh_not_sum`).
48. `ivMPS.E(op)` contracts the operator with its legs exchanged and returns the expectation value of the transpose (C83, `E_not_expectation`).
49. `fPEPS(data)` counts `Lx` as the number of rows, `random` and `add` as the number of columns: on a grid that is not square, `add` on a PEPS made by the constructor (also on the result of another `add`) pads the wrong legs and returns something that is no PEPS (C84, `add_not_peps`).
50. `fPEPS.recombine('row_snake')` merges the vertical bonds of odd rows from right to left and those of even rows from left to right, and so joins mirror-image columns when more than one bond between two rows is not trivial (C85, `recombineSnake_twist`, `recombineSnake_wrong`).
51. `fPEPS.from_mps(mps, Lx)`: a single column gets its bonds on the wrong legs, and the assertion tests `Lx` instead of the number of rows, so that tensors of an incomplete row are dropped (C87, `fromMps_column`, `fromMpsLx_drops`).
52. `fPEPS.E_k(op, sites)` is documented to take `op` in reading order, but reads it column by column (C86, `expK_not_reading`); for a block as wide as the grid it raises `ValueError` (`expK_full_width`).
53. `fPEPS.rho_proj(other, sites)` is documented as the partial trace of `|self><other|`, but leaves out the overlaps of the sites traced over (C88, `rhoProj_wrong`).
54. `F2(0, j, H)` of a state of norm `n` is `n` times the matrix element: `ch_l(i-1)` at site 0 reads the environment of the whole chain instead of 1 (C89, `exScaled_wrong`).
55. `F1(i, j, H)` takes the terms on the sites next to `min(i, j)` transposed: for the Hermitian term `i|10><01| - i|01><10|` and the state `|00>` the result has the wrong sign (C90, `exTwist_wrong`).
56. `F1(i, j, H)` with `j > i + 1` contracts the ket bond of the term on `i, i+1` with the bra bond of the right environment and conversely: wrong for real symmetric terms as well (C90, `exGap_wrong`).
57. `F1` reshapes every term to `(2, 2, 2, 2)` and raises `ValueError` for any other local dimension (C90, `FMPS.f1_dim`).
58. `christoffel(..., closed=(None, None, M))` takes environments from `dA_cache`, which `dA_dt` writes and nothing clears: after the tensors of the object change the result is that of a mixture of both states (C91, `exQ_stale`).
59. `jac` counts the sites without coordinates and then skips as many at the left end: if such a site lies elsewhere (`|0⟩ ⊗ (|00⟩ + |11⟩)`) it raises `ValueError` (C92, `FMPS.jac_gap`, `FMPS.exGap_jac`).
60. `lyapunov` starts `exps` as `[array([0])]` and takes `np.array(exps[-conv_window-1:])`: with numpy 1.24 or later (`setup.py` sets no bound) the first round raises `ValueError` for arrays of different lengths (C97, `Tdvp.lyapunov_ragged`).
61. `lyapunov(just_max=True)` appends nothing to `exps`, so the exponents returned are an empty array; it follows the first row of the basis, whose vectors are columns (C97, `Tdvp.lyapunovMax_spec`).
62. `lyapunov` divides a list by `dt` (`exps[k+1:n+2]/dt`): a `TypeError` unless `T` holds numpy numbers *(read)*.
63. `von_neumann` and `renyi` make one array of the lists of Schmidt weights: with numpy 1.24 or later they raise `ValueError` as soon as one recorded state is entangled across one cut, and otherwise return only zeros (C100, `Tdvp.vonNeumann_strict_fails`, `Tdvp.vonNeumann_strict_zero`, `Tdvp.bell_fails`).
64. `loschmidt()` after `edint` returns Schmidt weights, a copy of `schmidts` (C101, `Tdvp.loschmidt_ed`).
65. `loschmidt()` reads the whole history with the present bond dimension: `ValueError` after `expand` (C101, `Tdvp.loschmidt_expand_fails`).
66. `mps_energies()` reports the energy per site for a list of terms and the total energy for a full Hamiltonian; `ed_energies()` always the total (C101, `Tdvp.mpsEnergies_hist`).
67. `isometrise` on an `L` by `L` PEPS made by `random` raises `Exception` for `L ≥ 8` and `X > d²`, `d ≥ 2` (also for `L = 7` unless `oc = (3, 3)`): the truncations do not make the tensors next to the corners large enough (C104, `FPEPS.random_isometrise`).
68. `fPEPS(data)` sets `Lx` to the number of rows, `random` to the number of columns; `isometrise` takes it for the number of columns. Every PEPS made by the constructor, `copy`, `T`, `R`, `apply`, … whose grid is not square raises `IndexError` (C104, `FPEPS.isometrise_constructed`).
69. `truncate_below` compares the row with `Lx - 1` and `truncate_left` runs over `range(Lx)` rows: `isometrise` raises `IndexError` with more columns than rows and `Exception` with one row more than columns (C104, `FPEPS.isometrise_rect`).
70. `U2` in `peps_tools.py` is `pass`: `split_tensor` raises `TypeError`, so that no Moses move and no `iso_E` away from the centre returns (C105, `FPEPS.isoE_off_centre`).
71. `isometrise` cuts the bonds along the outermost rows and columns to 1: a 2 by 2 PEPS becomes a product state (C102, `FPEPS.vIso`, `FPEPS.hIso`).
72. `projection_error` redefines `l` as `def l(n): return ln`: from the second open bond on it is a constant of the wrong size unless the bond dimensions happen to match, and `ValueError` is raised, e.g. for `|0⟩(|00⟩+|11⟩)|0⟩` (C107, `projectionError_pair`).
73. `dynamical_expand` contracts `H` with its second output leg on the ket (`[3, 6, 2, 7]`) and leaves out `-i`: the eigenstate `|00⟩` of `XX + YY` becomes `|00⟩ + 2 dt |11⟩`, and for `XX` the step is one of imaginary time (C108, `grow_eigenstate`, `grow_phase`). `projection_error` contracts `H` correctly.
74. `Trajectory.dynamical_expand(D, dt, H)` ignores `H`; with `self.H` None it raises `TypeError` (C109, `trajExpand_own`).
75. `effH`: the right environments of `get_envs` carry the ket index before the bra index and are used the other way round, so `asmatrix` and `mv` belong to an operator with the right bond indices of bra and ket exchanged. For two sites with `J = 2`, `Jz = 1` no energy below −1 can be found at the first site; the ground state energy is −2 (C111, `ProjMpo.asmatrix_wrong`).
76. `effH.mv` returns the axes (left, site, right), `asmatrix` takes (site, left, right): they differ wherever the left bond is larger than 1, and the file's own test compares them there (C111, `ProjMpo.mv_wrong`).
77. `anisotropic_heisenberg(1, …)` of `projects/fMPO.py` is an MPO of two sites and `local_anisotropic_heisenbergs(J, Jz, h, 1)` one two-site term (C110, C112). `S_n_body(op, i, n)` with negative `i` is the identity (C112, `Qmb.sNBody_low`).
78. *(read)* `qmb.anisotropic_heisenberg_mpo` uses the undefined names `sz`, `sm`, `sp`, `I`, `O`. Files in `projects/` import the package `pymps`, which does not exist.
79. `fTFD.dA_dt(H)`: `kron(eye, h) + kron(h, eye)` is given to the super class as a two-site matrix, so every `h` acts on the two copies of single sites; sites are never coupled (C113, `TFD.dAdt_eq`, `TFD.dAdt_wrong`). *(read)* its argument `fullH` is handed on as `store_energy`.
80. `mps_OTOC` calls the undefined name `tdvp` as soon as an interval has a time step (C114, `Tdvp.mpsOTOC_name`). Without steps every entry lies between 3/2 and 5/2, also for commuting operators (`Tdvp.mpsOTOC_wrong`). `apply` returns a new object that is dropped, so `V` is not applied in the end. *(read)* `odeint` uses `solve_ivp` without importing it.
81. `fMPS.rho_proj` conjugates the tensors of `self` outside the sites: for `x = |0⟩(|0⟩+i|1⟩)` the partial trace of `|x⟩⟨x|` on the first site has the entry 2, the method returns 0 (C115, `FMPS.rhoProj_wrong`). It returns `None` for bond dimensions above one (`FMPS.rhoProj_none`).
82. `local_overlap` with a product state is too large by the squared norm of its tensors on the sites (C116, `FMPS.localOverlap_wrong`), while states with larger bonds are normalised first. `k_local_approx_overlap` is the complex inner product for `k=None`, the squared modulus for `k=L` (`FMPS.kLocal_full`), nan for larger `k`; its argument `L` is unused.
83. `apply_two_site_isometry` writes the new tensor to one of the two sites and keeps the other: the tensors fit together only if the bond between the sites equals the outer one (C117, `FMPS.applyTwoSiteIsometry_chain`). *(read)* For sites that are not neighbours and `lr=1` it writes site `j` although the two tensors were moved to `i` and `i+1`.
84. `fMPS.random(L, d, 1)` has local dimension 2 for every `d` (C118, `FMPS.random_product_wrong`); one site with another `D` is an `IndexError` (`FMPS.random_one_site`); the attribute `oc` of the object survives, and `rho` then returns a matrix of the wrong trace (`FMPS.random_stale`).
85. `random_with_energy_E` never ends when the energy stops changing less than 0.01 away from `E`: the test for a local minimum needs `abs(dE)>1e-2`, and `maxiters` counts only the outer loop (C119, `FMPS.randomWithEnergy_endless`; with the identity on two qubits and `E=0.505`: `FMPS.randomWithEnergy_identity`). The message "local minimum" is also raised when the energy is as high as it can be.
86. `projects/fHam.isin`: the field acts twice on the sites 3 to L-1; the list is the Ising chain for three sites only (C120, `ProjHam.isin_three`, `ProjHam.isin_wrong`), the second of two sites has no field (`ProjHam.isin_two`), and for one site there is a two-site term (`ProjHam.isin_one`). `iHam.isin` has the field 2λ (`ProjHam.iIsin_sum`).
87. `heis` of both scripts has `Sz12@Sz12`, the square of `Sz` on the first site of the bond, in place of `Sz12@Sz22` (C120, `ProjHam.heis_sum`, `ProjHam.heis_wrong`); for spin 1/2 the anisotropy only adds the constant Δ/4 per bond (`ProjHam.iHeis_sum`).
88. `projects/fHam.optimise` divides `energy(H)`, already per site, by `L` again (C121, `ProjHam.optimise_value`, `ProjHam.optimise_identity`), and a step of 0.1 can raise the energy (`ProjHam.optStep_up`: from 45 to 69.8).
89. `tensor.direct_sum(A, B)`: the zero blocks have the shapes `(A.shape[1], B.shape[0])` and its transpose, so `numpy.block` raises `ValueError` unless both matrices are square (C123, `TensorMisc.directSum_wrong`).
90. `spin.CR` and `spin.pCR` accept any operators smaller than the absolute tolerance of `allclose` (C122, `Spin.CR_wrong`). The docstring of `get_null_space` promises `v.T v = 1`; what holds is `v† v = 1` (C124).
91. `peps_tools.renyi_2_disentangler` never ends with `max_iter` at most 2, or a negative `eps`: the test that ends it runs from the third round of a start on (C127, `Disent.disentangler_diverges`).
92. `peps_tools.renyi_2_disentangler` takes the polar factor of `E2` where the gate that lowers the entropy is its adjoint (the comment "with only one iteration S oscillates. v. weird" is about this). For the normalised state `psiW` every round raises the entropy above that of the state left alone (C127, `Disent.disentangler_up`, `Disent.disentangler_up_run`).
93. `find_ground_state` compares `tol` with `ϵ` times the norm of the gradient: the smaller the step, the earlier it stops, and for every small enough `ϵ` it returns the random state it started from, with an empty list (C128, `IMPS.findGround_small`). The energy of the state returned is never in the list (`IMPS.findGround_spec`: the `k`-th number belongs to the state before step `k`).
94. `find_ground_state` always takes local dimension two; for another `H` it raises `ValueError` in the first round (C128, `IMPS.findGround_size`). For `D = 1` the eigensolver refuses the 1 × 1 transfer matrix *(read)*.
95. `eulerint` and `rk4int` of `iTDVP.py` take `T[1] - T[0]` for every step: other spacings are ignored (C129, `ITdvp.integrate_times`), and a single time is an `IndexError` (`ITdvp.integrate_short`). The step after the last time is computed and dropped (`ITdvp.integrate_spec`).
96. `optimise` of `projects/iHam.py` asks for the energy of a state in the mixed gauge, whose leading eigenvalue is `tr(lᵀ r)` and not one; `energy` does not divide by it, so the number returned, and the numbers the stopping rule compares, are the energy per bond times `tr(lᵀ r)²` (C130, `ProjHam.energy_mixed`, `ProjHam.iOptimise_wrong`). It is right when one of the fixed points is symmetric (`ProjHam.energy_mixed_partial`).
97. `fTFD.random(L, d, 1)` ignores `d`: the tensors have local dimension 4 while the attribute says `d²` (C131, `TFD.random_pure_wrong`). `random(L, d, 1, pure=False)` always raises `ValueError` (`TFD.random_mixed_one`), and one site raises `IndexError` unless `D = 1` (`TFD.random_one_site`).
98. `fTFD.symm_asymm` writes the projectors in a basis that lists the symmetric vectors first, which is not the basis of the pairs `i D + j` that `kron` uses: for `D ≥ 2` the "symmetric" projector takes a symmetric vector to zero (C132, `TFD.symmAsymm_wrong`). `fTFD.local_overlap` calls `isinstance` with a string and always raises `TypeError` *(read)*.
99. `qmb.local_XX(J, g)` ignores `g`: the field along z is `-J`, and is missing on the last site of an open chain (C133, `Qmb.localXX_spec`, `Qmb.localXX_wrong`).
100. `fPEPS.fix_neighbours` takes `Lx` for the number of columns; on a network made by the constructor that is not square it raises `IndexError` on the last column or row (C135, `FPEPS.fixNeighbours_tall`, `FPEPS.fixNeighbours_wide`).
101. `==` of `fMPS` and of `iMPS` zips the lists and leaves shapes to `allclose`: a chain is equal to every longer one that begins with it (C136, `EqMps.eq_prefix`), chains with bonds of dimension one and two can be equal although their amplitudes are 1 and 2 (`EqMps.eq_broadcast`), other bond dimensions raise `ValueError` (`EqMps.eq_raises`), and the relation is not symmetric (`EqMps.eq_asymmetric`).
102. `==` of `fPEPS` compares the shapes, but zips the rows and their tensors and does not look at `Lx` and `Ly`: with the same attributes, a network is equal to every one that goes on below it (C137, `FPEPS.eq_rows`).
103. `create_structure` of `fMPO` lists a first and a last shape for every length: `fMPO().random(1, d, X)` has two tensors and `L = 1` (C138, `FMPO.random_short`), and so has the boundary row `trivial(1)` that `environment` puts around a network of one column (`FMPO.trivial_short`). `trivial` does not set `L`.
104. `get_vL` of `fTFD` raises `ValueError` at every site whose left bond is not a square (C141, `TFD.splitVL_raises`); such bonds are possible for `pure=False`.
