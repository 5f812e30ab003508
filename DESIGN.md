# Formal model of gilvillard/hplll in Lean 4 — design and trusted base

## 1. Layout

| directory | content |
|---|---|
| `lean/Verif/Model/*` | executable model, function by function; every definition cites file and lines of `/repo` and says where it simplifies |
| `lean/Verif/Spec/*` | small specifications written only with Mathlib notions: `Spec/Lattice` (lattice spanned by columns, unimodular, full column rank), `Spec/Exact` (what "exact arithmetic" means for an `FPOps`), `Spec/LLL` (Gram–Schmidt, size-reduced, Lovász), `Spec/Cond` (condition number) |
| `lean/Verif/Proof/*` | invariants and helper lemmas |
| `lean/Verif/Props/*` | the property theorems (name = property id + words) and, beside them, non-vacuity examples |
| `seeded/LOG.jsonl`, `seeded/mutate.py` | wrong programs tried on the model and the theorems that rejected them |

## 2. Which source is modelled where

| source | model | what |
|---|---|---|
| `src/mat.h`, class `matrix` 94-518 | `Model/Mat` | access, column operations, `matrix_structure` |
| `src/mat.h` 520-2002 | `Model/MatH`, `Model/ParMat` | transposition, products (sequential and threaded), blocks, `matcmp` |
| `src/mat.h` (casts, `maxbitsize`, `lift_truncate`, `trunc`) and `src/nr_Z_l128.h` | `Model/Trunc` | bit-level functions |
| `src/hlll.h`, `src/hlll.cc` (`hlll`, `hsizereduce`, `size_update(_R)`, `psize_update_B`, `householder_r/v`, `seysenreduce`, `seysen_update`, constructor, `assign`, `shift_assign`, `put`, `shift`, accessors) | `Model/Lattice` | class `Lattice<mpz_t, F, matrix<Z>, matrix<F>>` |
| same text, any floating point matrix class | `Model/Cont` | `Gen.*`, used with `Model/MatPE` |
| `src/matpe.h` | `Model/MatPE` | shared exponent columns |
| `src/hlll.cc` (`householder`, `getR`, `setprec`, `isreduced`, `lcond`), `src/ratio.h` | `Model/Householder`, `Model/Cond` | |
| OpenMP loops | `Model/Par` | small-step interleavings |
| sequences of calls on one object | `Model/History` | `Call`, `runs` |
| `src/wrappers.h`, `src/hplll.cc` (command line tool) | `Model/Wrap` | |
| `src/relations_z.h`, `relations_z.cc`, `relations_f.cc` | `Model/Relations`, `Model/RelF` | `FPTuple`, `FPTuple_f` |
| `src/slll.h`, `src/slll.cc`, `src/slll-wrap.h` | `Model/Slll`, `Model/SlllWrap` | segment LLL, its threads, its wrappers |
| `src/l1.h` | `Model/L1` | recursive lifted reduction |
| `src/matgen.cc` (`command_line_basis`, `genalpha`) | `Model/Gen` | every random draw arbitrary; fplll's own generators are parameters |
| `src/hlll.cc` 2301-2512 (messages of `isreduced`) | `Model/Printed` | values printed |
| `src/ldpe.h`, `src/nr-ld.cpp` (`ldpe_t` operations, `set_z`, `set_f`, `get_si_exp`, `size_in_bits`) | `Model/Ldpe` | mantissas are rationals rounded on 64 (or 53) bits; `int` overflow is an outcome; no NaN, infinity, printing |
| `src/hlll.cc` 621-1125, 2811-3322 (`hlllp`, `newseysenreduce`, `seysenreduce0`, `seysen_update_R`, `pseysen_update_B`) | `Model/Hlllp` | literals 0.501, 0.50001 are parameters |
| `src/hlll.cc` on `long` / `__int128_t` entries, `src/mat.h` 301-435, `src/nr_Z_l128.h` 294-369 | `Model/Mach` | two's complement, strict or wrapping; left shift of a negative number is a multiplication |
| (none) | `Model/Near` | witness arithmetic for C67: `p` bits, round to nearest even, unbounded exponents; with `p = 53` it is IEEE double without overflow and underflow |
| `src/decomp.h`, `src/decomp.cc`, `src/decompz.h`, `src/decompz.cc` | `Model/Decomp` | operations on both floating point types uninterpreted; index range checks are the flag `ub`; no timers, no printing |
| `src/nullspace.h`, `src/nullspace.cc` 1-458, 533-549 | `Model/Nullspace` | `nullspace_lll` with `lsigma = 0` and `HLLL`; not the Lehmer loop, `FPLLL`, `L1` variants, `nullspace_fp_hjls` |
| `src/lehmer.cc` 56-203 | `Model/Lehmer` | no timers, no printing; `lift_truncate` for the type `ZT` is a parameter (`Leh.plain` for `mpz_t`), the parallel product a parameter constrained by C25 |
| `src/hjls.cc` | `Model/Hjls` | both floating point types uninterpreted; `long` transformations without overflow; no timers, no printing |
| `src/nullspace.cc` 460-549 | `Model/NullShift` | several shifts; `ex` (digits dropped by `trunc`) a parameter; no printing |
| `src/slll.cc` 1717-1814 | `Model/PHouse` | threads as lists of atomic accesses to one entry of `R`; no printing |
| `src/block.h` | `Model/Block` | `MatrixPE` as in C43; no printing |
| `src/lift.cc` | `Model/Lift` | as `src/relations_f.cc`; bound printed at the end not modelled |
| `src/matgen.cc` 372-530 | `Model/GenAlg` | elementary functions uninterpreted |
| `src/matpe.h` 1414-1456 (set_f) | `Model/Slll` (`setFMin`, `setFDpe`) | exponents by `getExp` of the arithmetic, exact powers of two |
| `src/matmixed.h`, `src/mixed-col.h` | `Model/Mixed` | no printing, no memory management; `mpfr_get_z` is `toZ` |
| `src/nr_Z_ld.h` (arithmetic used by `hlll`) | `Model/FloatInt` | rounding function; no exponent overflow |
| `src/hlll.cc` 979-1098 (seysen_update_R, pseysen_update_B), 638-771 | `Model/Hlllp`, `Model/ParSey` | threads as lists of entry updates, any interleaving |
| `src/nr_Z_l128.h` 105-144, 271-390 (operations of `Z_NR<__int128_t>`) | `Model/Int128` | wrapping arithmetic; `set_f` not modelled |
| `src/mat.h` 2930-3092 (exchange with NTL) | `Model/Ntl` | `mpz_nextprime`, NTL's `inv` as parameters; decimal texts read back as written |
| `src/nr-ld.cpp` 338-454 (`hplllprint`) | `Model/PrintDpe` | products and divisions by two exact; the significand before `fprintf` |
| `src/matpe.h` 777-1000 (setcol, machine significands) | `Model/SetcolFin` | exponents unbounded; conversions by contract |
| `src/matpe.h` 334-395, 700-771, 1005-1033, 1149-1180 (setcol from dpe, addcol, normalize) | `Model/DpeCol` | machine significands, wrapping exponents |
| `src/mat.h` 1062-1077, 1941-1958, 2007-2056, `src/matpe.h` 1374-1411, `src/matmixed.h` 544-596 | `Model/Maple` | characters written; text of an entry as a parameter |

## 3. Modelling decisions

* **Matrices** are column arrays `M j i` (= C++ `M[j][i]` / `get(i,j)`), total functions; dimensions are
  stored in the owning object. An access outside the allocated size sets the sticky flag `ub` of the state
  (C18 shows it is never set). `Z_NR<mpz_t>` is `Int`.
* **Floating point** is a type `F` with an uninterpreted record `FPOps F`. A theorem "for every floating
  point behaviour" quantifies over it with no hypothesis: any rounding, any precision, NaN. The only
  built-in assumption is the return type of `get_si_exp`/`get_z_exp_we` (non-negative exponent — the fplll
  contract). Theorems "in exact arithmetic" assume `Exact o` (`Spec/Exact`): an interpretation of `F` in
  the reals in which each operation is the real one (`realOps_exact` shows that it is satisfiable).
* **Uninitialised storage** (members read before they are written) is an argument of the constructor
  (`Junk`) and is universally quantified (C53).
* **Loops**: `for` loops are folds; `while` loops take fuel, `none` = not finished. Every safety theorem
  quantifies over all fuels; termination theorems exhibit a fuel (C10, C35, C36, C42) or prove there is none.
* **Threads**: the body of each thread of an `omp parallel for` is a list of atomic single-cell
  instructions; a schedule is any interleaving. In the segment LLL the unit is a whole column-block
  operation (`SlllSched`), after proving that blocks are disjoint.
* **External library behaviour** used as contract: `mpz` arithmetic is integer arithmetic; `mul_2si` by a
  negative amount is floor division by a power of two (`fdiv`); `mpz_get_si` keeps the value when it fits;
  `cmp` returns -1, 0, 1; `Z_NR::exponent`/`mpz_sizeinbase(.,2)` is the bit length; `matrix_cast` to `mpz`
  is the identity. Conversions `FT ↔ ZT` (`set_f`, `set_z`) are arbitrary functions (`FPOps.ofZ`,
  `FPOps.toZ`); in `Model/RelF` they are `setF`, `setZ`. The external `lll_reduction` of fplll
  (`-lfplll` branch) is a parameter. `l1.h` is written for an older fplll; its names are read as the
  current ones.

## 4. Not modelled

* wrap-around of `long` / `__int128` entries, except in `hlll` (C62), `C36_no_overflow`, C27–C30, C32; rounding of floating point entries, except in `hlll` (C85, C36, C80);
* rounding, underflow and overflow of the significands of `MatrixPE` and overflow of its `int` exponents
  (significands are reals, exponents unbounded integers);
* internal behaviour of mpfr, gmp, fplll, NTL, Flint, of the memory allocator;
* timers, messages, `verboseDepth` output (its value is modelled, C17);
* functions never called by the library (`SLattice::rotate`, `phouseholder`, `psize_update_B` of
  `slll.cc`), and the experimental files not in the table of section 2.

## 5. Defects of the code found while proving

Each is a theorem (a negation with a concrete witness, or an exact characterisation).

1. `getU` is not the transformation when the parallel size reduction runs (C07).
2. `assign` on a used object leaves old data: it does not clear `Bfp` (C19); `put` keeps the old profile, and
   the reduction may then lose the lattice (C52).
3. `shift` leaves the off-diagonal part of `U`, so `getU` afterwards is not relative to the shifted basis (C20).
4. Seysen's method in parallel mode computes nothing but swaps (C22); without the long flag it reads the
   member `x`, never set (C23, `C53_seysen_nolong_uninitialised`).
5. `isreduced` ignores a failed reduction and answers wrongly for one column (C16, C37).
6. `pmatprod_in` leaves the last `m mod S` rows unmultiplied (C26).
7. Conversion `__int128` → double-double adds the low part with the wrong sign for negatives (C29).
8. Narrowing casts lose high bits silently (C30); `lift_truncate` on `long` and `__int128` differs from the
   `mpz` one (C32).
9. Truncation in the relation search loses unimodularity (C34); `FPTuple_f` ignores `delta` and the
   method and never returns for a non-positive shift increment (C36).
10. `lcond` changes the default precision and does not restore it (C40); `lcond(ANY)` reads uninitialised
    storage (C47); improper bases break the triangular bound (C48).
11. `matcmp` is wrong when leading entries are zero (C45).
12. Segment LLL: padding to a multiple of the block size may lose the lattice; `getU` is the transformation of
    the last phase only (C38); the swap counter is racy (C51). The final reduction of `slll_wrap_gap`
    ignores the requested `delta` (C39).
13. Recursive `L1` never returns for some parameters (C42).
14. `MatrixPE` column operations with a row range rescale the rows outside the range (C43).
15. `command_line_basis`: `-type u` with the default `-m 1` never gives independent columns, `-type rb` with
    `m > d` writes out of range, `-type c` without `-h`, `-N`, `-X` and an unknown type use uninitialised
    variables (C55).
16. `isreduced` prints a wrong `eta` and `alpha` after a failed test (division by a signed diagonal), and calls
    "swaps" the number of additional tests (C56).
17. `ldpe_t`: a product (quotient) of zero by a number of negative (positive) exponent overflows a signed `int`
    (C57); `set_z(0)`, `sqrt(0)` and `mul_2si(0,e)` give zeros which compare as negative and can absorb a summand
    (C58); `rnd`, `floor`, `ceil`, `frac` pass through a `double` below `2^63`, so `rnd` of an integer of more than
    53 bits is another integer and `frac` may be 1 (C59).
18. `set_f(mpz, ldpe_t or long double)` writes three bytes ("-1") in an array of two for the value -1; `lround`
    is out of range for `2^63 - 1/2` and for every `long double` from `2^63` on (C59).
19. `size_in_bits` of machine integers is one less than that of `mpz_t` for every nonzero integer (C59).
20. On `long` entries a size reduction may overflow and `hlll` then returns 0 with a basis of another lattice (C62).
21. `hsizereduce` may loop for ever: it ends only after two successive passes without a tenfold decrease of the
    squared norm, and with a quotient 1/2 and rounding errors the column can alternate between a short and a long vector.
    Double precision, `delta = 0.99`, a 7x7 basis with entries at most 40; `set_nblov_max` does not help (C67).
22. `Fgas::set` and `ZFgas`/`Fgas` reuse: `matrix::resize` does not zero, so `set` keeps the off-diagonal entries of `U` and
    `W` (and `ldim`); `restarting_hjls` accumulates these matrices (C72).
23. The nullspace functions fail on full rank inputs with large quotients (`A = (10^10, 1)`), the confidence gap being
    taken for a zero (C69); with as many rows as columns `decomp` reads a column that does not exist (C68).
24. `fgasgen` writes only the diagonal of the identity block of a new `matrix<FP_NR<RT>>`, which is not zero after
    construction with `mpfr_t` (NaN): its decomposition is then of arbitrary data (C70 holds nevertheless).
25. `nullspace_hjls` calls `decomp` with `gamma = 1.1414` (nullspace.cc:278), smaller than `2/sqrt 3`, so an exchange
    need not decrease the potential: on `A = (2 1 1 1)` with the default precision the loop never ends (C74).
26. `lehmer_lll` reduces with the constant 0.99 instead of its argument `delta` when `lshift != 0` (lehmer.cc:169), and
    does not return for a negative `lshift` (C75).
27. `restarting_hjls` ends with the test `nullity != 1` instead of `nullity != nbrel` (hjls.cc:548): for `nbrel = 2` it
    refuses two valid relations and accepts one wrong relation out of two (C76).
28. `restarting_hjls` calls `Fgas::set` before each decomposition, which does not reset the transformations (C72): after
    a restart `V` and `B` are wrong, and relations are lost (C76).
29. `phouseholder(S)` computes only the first `S * (d / S)` columns: the last `d mod S` keep their previous contents
    (C78).
30. `phouseholder(S)`: a column which becomes zero gets only `V(k,k) = 1`; the rest of the vector is what `V` contained
    before, and the map applied to the later columns is not a reflection (C78).
31. `blevel` does not write the last `d mod bs` columns of its output, and its reused object may leave a block that is
    not reduced although the status is 0 (C79).
32. `lift_z` compares the quotient of the first lift with 1 instead of `2^alpha`: a relation with coefficients at most
    `2^confidence_gap` that the first lift finds is not reported (C80).
33. `gen3r2s` takes the logarithm of a negative number when `3^s < 2^r`: all entries but the first are NaN (C81).
34. `MatrixRZ::set(i, j, z)` writes the integer row `i - d`, `get(i, j)` reads the integer row `i`; `mixed_trunc` with `t < 0`
    writes out of range when there are more integer rows than columns; `setcol` from a mixed column also overwrites the rows
    `d .. beg-1` (C83).
35. `FPTuple(x)`: undefined for an empty vector and for a tuple with a zero entry next to an entry of magnitude at least 1/2
    (`emax - emin` overflows `long`); the search never reports a relation when the exponents of two entries differ by `alpha` or
    more, although the lattice contains it (C84).
36. `hlll` on entries of type `double`, `long double` (used by `relation_f`): an entry operation that needs more bits than the
    type is rounded silently; the call returns 0 with a basis of another lattice (C85).
37. `SLattice::hlll` called with more segments than the constructor got writes beyond the end of `swapstab` (C86).
38. `Lattice::seysenreduce0`: the sequential branch ignores `bounded` (the last pass can change the basis and
    leaves a stale factor marked as kept), the parallel branch does not update `U` (C87).
39. `Z_NR<__int128_t>::operator=(mpz_t)` and `randb` go through `mpz_get_si`: only 63 bits and the sign are
    kept, although `mpz_set_128int` keeps 128 (C88).
40. `NTL_inv` ignores the determinant returned by NTL's `inv`: on a matrix of determinant -1 it gives the
    opposite of the inverse (C89).
41. `MatrixPE::setcol` from `mpfr_t` takes the exponent 0 of a zero entry into the shared exponent: a column
    with a zero and otherwise entries below `2^-1076` (for `double`) is stored as the zero column (C91).
42. `MatrixPE::setcol` from `dpe_t` gives a zero column the exponent `INT_MIN`; `addcol` to it computes
    `INT_MIN - exp[k]`, which overflows for `exp[k] > 0`, and loses the added column (C92). `normalize` flushes
    columns of entries below `2^-1075`, its exponent starting at 0.
43. `print2maple` of a mixed matrix with exactly the real rows ends the last row with a comma (C93).

## 6. Properties

| id | property | method | theorems (`Props/` file) | status, note |
|---|---|---|---|---|
| C01 | hlll never changes the lattice | every reduction is a sequence of elementary column operations (`ZStep`); invariant `LInv` (profile, unimodular `W` with `B = A W`), induction over the main loop; arbitrary `FPOps` | `C01_hlll_preserves_lattice` (Lattice) | proved; every FPOps, every exit |
| C02 | getU is the transformation: A*getU()=getbase() | every reduction is a sequence of elementary column operations (`ZStep`); invariant `LInv` (profile, unimodular `W` with `B = A W`), induction over the main loop; arbitrary `FPOps` | `C02_transformation` (Lattice) | proved; every FPOps; hypotheses: independent columns, sequential reduction (see C07) |
| C03 | getU is unimodular | every reduction is a sequence of elementary column operations (`ZStep`); invariant `LInv` (profile, unimodular `W` with `B = A W`), induction over the main loop; arbitrary `FPOps` | `C03_getU_unimodular`, `C03_getU_without_transform` (Lattice) | proved; every FPOps |
| C04 | Volume is preserved | every reduction is a sequence of elementary column operations (`ZStep`); invariant `LInv` (profile, unimodular `W` with `B = A W`), induction over the main loop; arbitrary `FPOps` | `C04_volume` (Lattice) | proved; every FPOps |
| C05 | Truncated column operations are exact | rows above the recorded profile stay zero, same invariant | `C05_zero_rows_stay_zero` (Lattice) | proved; every FPOps |
| C06 | Parallel size reduction equals the sequential column operations | small-step threads; confluence of disjoint row slices; the slices tile the range | `C06_all_schedules`, `C06_thread_settings_irrelevant` (Par) | proved; all interleavings; small-step thread model |
| C07 | getU in parallel mode: unimodular, but not the transformation | unimodular by `UInv`; the identity is refuted by a witness run of the parallel mode | `C07_getU_unimodular_any_threads`, `C07_getU_wrong_in_parallel_mode` (Par) | proved; positive part for every FPOps; the sequential identity is refuted by a witness |
| C08 | Return 0 means LLL-reduced (exact arithmetic) | exact arithmetic; invariant `ExactInv` (R, V, caches are the Householder data of the current basis, size-reducedness, Lovász below kappa) | `C08_output_reduced` (Exact) | proved; exact arithmetic, any tie breaking, both methods |
| C09 | No spurious failure in exact arithmetic | exact arithmetic; the failure branch needs a norm increase or stagnation, excluded by the size-reduction specification | `C09_never_fails` (Exact) | proved; exact arithmetic |
| C10 | hlll terminates (exact arithmetic) | exact arithmetic; potential = product of Gram determinants; explicit fuel | `C10_terminates`, `C10_swap_bound`, `C10_total_correctness` (Exact) | proved; exact arithmetic, ties to zero, size-reduction method |
| C11 | Short first vector | C08 + Gram–Schmidt inequality chain | `C11_short_first_vector`, `C11_successive_minima` (Exact, Nullspace) | proved; exact arithmetic |
| C12 | Householder orthogonalisation is a QR factorisation (exact arithmetic) | Householder reflections: `R` upper triangular, same Gram matrix | `C12_householder_QR`, `C12_getR_after_hlll` (Exact) | proved; exact arithmetic |
| C13 | Cached orthogonalisation data is never stale | invariant at every reachable loop head | `C13_cache_never_stale` (Exact) | proved; exact arithmetic, all loop heads reachable from a fresh object |
| C14 | Test budget is respected | counter in the loop invariant | `C14_test_budget` (Lattice) | proved; every FPOps |
| C15 | Tests count determines swaps | counter in the loop invariant | `C15_tests_versus_swaps` (Lattice) | proved; every FPOps |
| C16 | What isreduced's answer means | model of `isreduced`, exact characterisation of the answer | `C16_isreduced`, `C16_isreduced_sound`, `C16_isreduced_ignores_failure`, `C16_isreduced_single_column` (History) | proved; every FPOps / exact arithmetic; two defects stated as theorems |
| C17 | verboseDepth is restored | all exits of `hlll` | `C17_verboseDepth_restored` (Lattice) | proved; every FPOps |
| C18 | Index safety in every history | flag `ub`, invariant over all histories | `C18_index_safety`, `C18_put_safety`, `C18_seysen_blocks` (History, L1) | proved; every FPOps, every history, also with put |
| C19 | assign on a used object | simulation `Agree` between two objects that differ in dead storage; witness for the defect | `C19_assign_fresh`, `C19_assign_ok`, `C19_assign_not_fresh` (Fresh, History) | proved; arbitrary arithmetic, all histories; the condition on the profiles is sufficient (the witness shows that some condition is needed) |
| C20 | shift and the transformation | characterisation + witness | `C20_shift_keeps_offdiagonal`, `C20_shift_not_identity` (History) | proved; the English expectation (identity) is refuted by a witness; exact characterisation proved |
| C21 | Histories of API calls preserve the assigned lattice | induction over call lists; resuming by the exact invariant | `C21_histories`, `C21_resume`, `C21_resume_terminates` (History) | proved; every FPOps, every history; resuming in exact arithmetic |
| C22 | Seysen method in parallel mode only permutes | characterisation + witness | `C22_seysen_parallel_only_permutes`, `C22_seysen_parallel_not_reduced` (History) | proved; every FPOps |
| C23 | Seysen multipliers without the long flag | two objects that differ in one dead member; witness | `C23_seysen_uses_stale_member`, `C23_seysen_depends_on_junk` (History) | proved; every FPOps |
| C24 | Block partition is a partition | induction over block indices | `C24_get_put`, `C24_put_other`, `C24_rebuild`, `C24_block_sizes`, `C24_square_blocks`, `C24_setblock` (MatH) | proved; all sizes |
| C25 | Parallel matrix products equal the sequential product | interleavings of row slices | `C25_pmatprod_in_int`, `C25_tpmatprod_in_int`, `C25_pmaprod_diag`, `C25_pmatprod` (MatH) | proved; every interleaving of the threads |
| C26 | pmatprod_in multiplies only S*(m/S) rows | characterisation + witness | `C26_pmatprod_in`, `C26_pmatprod_in_divides`, `C26_pmatprod_in_drops_rows` (MatH) | proved; the English expectation is refuted; exact characterisation proved |
| C27 | 128-bit integer conversion round-trips | `BitVec 128`/integers, arithmetic | `C27_roundtrip`, `C27_range` (Trunc) | proved; all integers |
| C28 | 128-bit decimal printing is faithful | digit induction | `C28_print` (Trunc) | proved; all 128 bit integers |
| C29 | 128-bit to double-double has a sign error | exact error formula + witness | `C29_set_z_wrong_sign`, `C29_set_z_witness` (Trunc) | proved; the English expectation is refuted (sign of the low part); exact error for every rounding to 53 bits |
| C30 | Narrowing casts of integer matrices | characterisation | `C30_matrix_cast`, `C30_no_silent_loss` (Trunc) | proved; exact characterisation |
| C31 | maxbitsize bounds every entry | bit lengths | `C31_maxbitsize`, `C31_maxbitsize_rows` (Trunc) | proved; all matrices |
| C32 | Truncation keeps leading digits | floor division bounds | `C32_lift_truncate`, `C32_lift_truncate_long`, `C32_long_witness`, `C32_lift_truncate_128`, `C32_lift_truncate_128_exit`, `C32_128_witness`, `C32_trunc` (Trunc) | proved; all matrices; the double product in trunc enters through a bound on the exponent |
| C33 | matrix_structure is the monotone column profile | induction over columns | `C33_structure` (Trunc) | proved; all matrices |
| C34 | Integer relations are relations | invariant `relation`: last column times input = 0, over any reduction and truncation | `C34_relation`, `C34_relation_primitive`, `C34_reals`, `C34_truncation_loses_unimodularity` (Relations) | proved; any arithmetic, schedule, truncation; unimodularity fails under truncation (witness) |
| C35 | Relation search terminates | bound on the loop | `C35_iterations`, `C35_returns` (Relations) | proved; all parameters |
| C36 | FPTuple_f: relations, and ignored parameters | as C34 + overflow bounds + non-termination | `C36_parameters_ignored`, `C36_delta_matters`, `C36_relation`, `C36_gap`, `C36_no_overflow`, `C36_returns`, `C36_never_returns`, `C36_rounding_matters` (RelF) | proved; The reductions run on rounded FT integers with an arbitrary rounding; conversions are arbitrary functions; primitivity is under the condition that no operation was rounded (C36_rounding_matters shows it is needed). |
| C37 | Wrapper reductions preserve the lattice in every dimension | C01 along the phases | `C37_wrappers`, `C37_phases`, `C37_reduced`, `C37_single_column_check` (Wrap) | proved; all dimensions, any arithmetic per phase |
| C38 | Segment LLL: lattice and schedules | block invariants, schedules; witness for padding | `C38_segment_lll`, `C38_schedule_independent`, `C38_padding_loses_lattice`, `C38_getU_is_last_phase` (Slll) | proved; the unconditional claim is refuted; conditions for equality proved; sublattice unconditional |
| C39 | Segment wrappers: recursion and lattice | recursion over the wrapper | `C39_slll_wrap_gap`, `C39_slll_wrap`, `C39_slll_wrapper` (SlllWrap) | proved; all dimensions, any arithmetic, any schedule |
| C40 | lcond does not restore the default precision | characterisation | `C40_precision_after_lcond`, `C40_lcond_returns` (Cond) | proved; the original expectation (precision restored) is refuted; exact characterisation |
| C41 | Quality ratios | real arithmetic on the diagonal of R | `C41_ratio`, `C41_ratio0` (Cond) | proved; exact arithmetic; conversions to double not modelled |
| C42 | Recursive L1 preserves the lattice | as C39 | `C42_l1`, `C42_returns`, `C42_never_returns` (L1) | proved; l1.h uses names of an older fplll; read as the current ones |
| C43 | hlll over shared-exponent matrices | the text of `hlll` over an abstract matrix class; lawful classes simulate the plain one (`Sim.hlll_sim`); `MatrixPE` is lawful | `C43_column_operations`, `C43_setcol_mixed`, `C43_other_columns`, `C43_vectors`, `C43_rows_outside`, `C43_addcol_changes_other_rows`, `C43_hlll_matrixPE`, `C43_hlll_matrixPE_reduced` (MatPE) | proved; significands are real numbers, exponents unbounded integers: rounding, underflow and overflow are not modelled |
| C44 | Command line tool outputs a basis of the input lattice | composition of parsing-free `main`, C37 | `C44_program`, `C44_rows` (Wrap) | proved; whole main path of the program after parsing; the external reducer of -lfplll is a parameter |
| C45 | matcmp decides equality up to row signs, except for leading zeros | characterisation | `C45_matcmp` (MatH) | proved; exact characterisation, with the defect |
| C46 | Matrix helpers compute what they say | pointwise equations | `C46_transpose`, `C46_transpose_in`, `C46_setId`, `C46_isId`, `C46_set`, `C46_products`, `C46_set_columns`, `C46_shift_in` (MatH) | proved; all sizes |
| C47 | lcond(ANY) is an upper bound but reads uninitialised storage | real analysis of the triangular inverse; junk dependence | `C47_lcond_any`, `C47_lcond_any_unbounded` (Cond) | proved; upper bound and dependence on uninitialised storage |
| C48 | lcond(TRIANGULAR_PROPER) is an upper bound for proper bases | back substitution bound | `C48_lcond_triangular`, `C48_improper_witness` (Cond) | proved; all dimensions |
| C49 | isreduced prints the best Lovasz parameter | exact arithmetic | `C49_printed_delta` (Cond) | proved; exact arithmetic |
| C50 | FPTuple::lll returns a best column | induction over columns | `C50_lll` (Relations) | proved; any arithmetic |
| C51 | Swap counter of the segment LLL under races | interleavings of read/write pairs | `C51_swap_counter`, `C51_one_thread`, `C51_lost_update`, `C51_table` (Slll, SwapTab) | proved; all interleavings |
| C52 | put keeps the old profile | C01 with an assigned profile; witness | `C52_put_unimodular`, `C52_put_lattice`, `C52_put_loses_lattice` (L1) | proved;  |
| C53 | Results do not depend on uninitialised storage | simulation `Agree` over all histories | `C53_uninitialised_storage`, `C53_seysen_nolong_uninitialised` (Fresh) | proved; every storage content, arithmetic and history |
| C54 | Reducing a reduced basis changes nothing; isreduced decides reducedness (exact arithmetic) | Proof/Idem, Proof/IdemStep: Gram-Schmidt invariance under unitriangular changes, no-swap step lemma on the exact loop invariant, fixed-point of the size reduction pass; Spec.ReducedUpToSize is stated on Mathlib's gramSchmidt | `C54_reduced_is_fixed`, `C54_idempotent`, `C54_no_swap`, `C54_isreduced_iff`, `C54_isreduced_terminates` (Idem) | proved; Gram-Schmidt vectors are invariant under unitriangular integer changes and |mu|<=1/2 minimises (mu+c)^2, so every Lovasz test passes; the size reduction pass finds nothing to do. |
| C55 | Which command-line bases can be reduced, whatever the random numbers | Model/Gen, Proof/Gen: the fill loops by induction, determinants of triangular matrices, C10 for the program | `C55_knapsack`, `C55_ajtai`, `C55_block`, `C55_block_default`, `C55_unif_never`, `C55_unif`, `C55_dec_zero`, `C55_dec`, `C55_copp`, `C55_copp_uninitialised`, `C55_other`, `C55_alpha`, `C55_alpha_not_size_reduced`, `C55_program` (Gen) | proved; random draws are arbitrary integers; matrices made by fplll's generators enter through their contract; conversions of genalpha are parameters |
| C56 | What isreduced prints is true of the basis (exact arithmetic), except eta after a failed test | Model/Printed, Proof/Printed: facts on the triangular factor (householder, exit of the exact loop), maximum of a double loop, quadratic inequality for alpha | `C56_first_block`, `C56_messages`, `C56_second_eta`, `C56_second_eta_witness` (Printed) | proved; exact arithmetic; the constants theta are parameters; the eta (hence alpha) of the second block is refuted |
| C57 | Arithmetic of extended-exponent long doubles (FP_NR<ldpe_t>) is correctly rounded, also in place | Model/Ldpe (memory of (mantissa, exponent) cells, so aliasing is covered), Spec/Float (nearest float), Proof/Ldpe, Proof/LdpeArith: rounding is nearest, commutes with powers of two; gap between floats for the early exits; integer square root | `C57_add`, `C57_sub`, `C57_mul`, `C57_div`, `C57_sqrt`, `C57_neg_abs`, `C57_mul_2si`, `C57_defined`, `C57_zero`, `C57_add_witness` (Ldpe) | proved; long double = rationals rounded to nearest even on 64 bits (range limits, NaN and infinities left out); int exponents with overflow as an undefined outcome; the claim of correct rounding of sums is refuted in the cases Missed, and products with zero may be undefined |
| C58 | Comparisons of FP_NR<ldpe_t> are the order of values on normalised numbers, not on every zero | Proof/LdpeArith: comparison of sign, exponent and mantissa is the order of values on normalised numbers; counterexamples for other zeros | `C58_cmp`, `C58_cmp_double`, `C58_sgn`, `C58_zeros`, `C58_bad_zero` (Ldpe) | proved; order on normalised numbers; zeros produced by set_z(0), sqrt(0), mul_2si(0) are refuted |
| C59 | Roundings and conversions of FP_NR<ldpe_t>: where they are exact and where they are not | Proof/LdpeConv: case analysis on the exponent; decimal length of an integer against its bit length | `C59_round`, `C59_floor`, `C59_ceil`, `C59_frac`, `C59_exact`, `C59_witness`, `C59_get_si_exp`, `C59_get_si_exp_witness`, `C59_set_f`, `C59_set_f_ld`, `C59_set_f_witness`, `C59_set_z`, `C59_set_z_witness`, `C59_size_in_bits`, `C59_get_z`, `C59_get_z_exp_witness`, `C59_set_si`, `C59_set_d`, `C59_swap` (Ldpe) | proved; exact characterisation of each conversion, with the inputs on which it is not what the header announces |
| C60 | The Seysen method outputs a Seysen-reduced basis satisfying the Lovász conditions, and terminates | Proof/SeyExact, Proof/SeyBlocks (one block solves a triangular system, later blocks do not disturb it), Proof/ExactGen (loop invariant of the exact main loop for any reduction), Proof/SeyGS (link with Gram–Schmidt), Spec/Seysen | `C60_seysen_output`, `C60_seysen_terminates`, `C60_seysen_short_first_vector` (Seysen) | proved; exact arithmetic; Seysen-reducedness is Spec/Seysen (blocks by binary digits of the column index) |
| C61 | hlllp: same lattice, transformation, reducedness and termination, and equality with hlll below the threshold | Model/Hlllp, Proof/HlllpAny (any arithmetic: invariants of hlll carried to the loop of hlllp), Proof/ExactGen (exact) | `C61_hlllp_lattice`, `C61_hlllp_transformation`, `C61_hlllp_is_hlll`, `C61_hlllp_output`, `C61_hlllp_never_fails`, `C61_hlllp_terminates`, `C61_hlllp_short_first_vector` (Seysen) | proved; any arithmetic for lattice/transformation/indices/equality with hlll; exact arithmetic for the rest; 0.501 is a parameter at least 1/2 |
| C62 | hlll on machine integers: same as on unbounded integers unless an operation overflows | Model/Mach (hlll on w-bit integers), Proof/Mach (simulation by the run on unbounded integers seen through wrap), Proof/MachOK, Proof/MachFix, Proof/Swell (short vectors are fixed by wrap), Proof/MachSmall (growth of the quotients by 3/2 per step, diagonal of the reduced prefix: bound on every intermediate integer) | `C62_no_overflow_same_run`, `C62_no_overflow_lattice`, `C62_wrap_lattice_mod`, `C62_wrap_transformation`, `C62_wrap_volume_mod`, `C62_overflow_loses_lattice`, `C62_small_input_exact`, `C62_enough_bits`, `C62_reduced_input` (Mach, MachSmall, Swell) | proved; two's complement of w bits, strict (overflow undefined) or wrapping; conversions outside the type are an undefined outcome; the claim that a 0 status means same lattice is refuted |
| C63 | The vectors do not swell | Proof/Swell: invariant of the exact main loop on Gram determinants and vector norms (a swap never raises the profile above its maximum) | `C63_no_swelling` (Swell) | proved; exact arithmetic, size reduction method, any stop point given by the test budget |
| C64 | In floating point, the cached factors left by hlll are the factorisation of the returned basis, and every test holds on them | Spec/FpQR (Householder factorisation over arbitrary operations), Proof/FpHh, FpInv, FpLoop, FpMain, FpHhAll: invariant of the main loop stating which columns of R and V are, bit for bit, those of the factorisation from scratch; it covers the reuse of columns by kappamin, descendu and after swaps | `C64_final_tests`, `C64_getR_recomputed` (FpRun) | proved; any arithmetic with exact operations on zero (ZeroLaws); status 0 within the budget; getR statement under absence of division by zero in the recomputation |
| C65 | Backward stability: getR() is the exact factor of a nearby basis, reduced up to rounding | Spec/FpErr (standard model), Proof/FpErr (calculus of relative errors), FpErrDot (dot product, application of a reflection), FpErrCon (construction of a reflection), FpErrQR (composition; tests), on top of C64; Model/Rfloat is a witness arithmetic only | `C65_backward_stable`, `C65_householder`, `C65_error_size` (FpErr) | proved; standard model with unit roundoff u<1 (Spec/FpErr), ZeroLaws, nonzero computed diagonal; non-vacuity by a 53 bit floating point run evaluated by the kernel |
| C66 | Sufficient precision: the basis returned by floating point hlll is truly reduced | Proof/FpCert (back substitution in a reduced triangular factor bounds the distortion), Proof/FpCertGS (Gram-Schmidt vectors as combinations; distances), on top of C65 | `C66_truly_reduced`, `C66_lengths`, `C66_short_first_vector` (FpCert) | proved; standard model, ZeroLaws; the bound eta on the quotients is a hypothesis on getR() (checked by the user), since the anomaly exit of hsizereduce only guarantees quotients about 1 (C65) |
| C67 | When hlll returns, and when it does not | Model/Near (round to nearest arithmetic, a witness), Proof/Near (it satisfies the standard model), Proof/Cycle (the basis is a fixpoint of two passes; the other data agree by Sim.hsizeLoop_sim with the identity container), Proof/Returns (main loop ends by the budget; sequence of passes, at least one drop in two; lengths are positive integers) | `C67_never_returns`, `C67_never_returns_honest`, `C67_stuck_after_five_tests`, `C67_returns_iff_columns_do`, `C67_stuck_only_by_bouncing` (Returns) | proved; the arithmetic of the run without end is Model/Near (round to nearest even, 53 bits, unbounded exponents); the characterisation needs the standard model and ZeroLaws, and is for method 0 |
| C68 | FGAS decompositions apply a unimodular transformation | Model/Decomp (one object for ZFgas and Fgas), Proof/Decomp (every run is a sequence of elementary moves), Proof/DecompAlg (a ghost transformation and its inverse transpose follow the moves), Proof/DecompSafe (index ranges) | `C68_zfgas`, `C68_fgas`, `C68_fgas_exact`, `C68_square_out_of_range` (Decomp) | proved; any arithmetic; residue and decomposed matrix of Fgas under exact operations on its entries |
| C69 | nullspace_direct_decomp returns -1 or a saturated family of relations | Model/Nullspace, Spec/Nullspace, Proof/Nullspace (a matrix with an integer left inverse whose columns are relations; rank and nullity over Z), Proof/DecompMain (the left inverse is a block of the ghost inverse) | `C69_direct`, `C69_direct_basis`, `C69_gap_defect` (Nullspace) | proved; any arithmetic; the failing input is a run in 53 bit arithmetic (Model/Near) |
| C70 | nullspace_hjls and nullspace_indirect_decomp return -1 or a saturated family of relations | as C69; columns below dec are never exchanged, hence a block of zeros in the ghost matrices (Proof/DecompAlg) | `C70_hjls`, `C70_hjls_basis`, `C70_indirect`, `C70_indirect_basis` (Nullspace) | proved; any arithmetic, any uninitialised content |
| C71 | nullspace_lll returns relations, and all of them with a large enough shift | as C69 with the invariant of hlll (C01); completeness: Proof/Minima (the first k vectors of a reduced basis against k independent vectors), C08, C10, divisibility of the upper part by 2^alpha (Proof/NullLll) | `C71_lll`, `C71_lll_basis`, `C71_complete`, `C71_small_shift` (Nullspace) | proved; lsigma = 0, HLLL; the Lehmer loop and the fplll and L1 variants are not modelled; completeness in exact arithmetic (ExactTies), hlll within its default test budget |
| C72 | Fgas::set does not reset the transformation | Proof/DecompRel: the moves from any state multiply U, W and the matrix by the same transformation | `C72_set_general`, `C72_set_defect` (Decomp) | proved; general statement with exact entries; negation by a 53 bit run evaluated by the kernel |
| C73 | nullspace_direct_decomp terminates and finds the kernel in exact arithmetic | exact spec of householder and of the size reduction (Proof/DecExact), of an exchange (Proof/DecStep), potential = product of the partial Gram determinants of the left part, decreasing by 1/4 + 1/gamma^2 per iteration (Proof/DecLoop), bounded below by 1 for an integer matrix | `C73_direct_succeeds`, `C73_direct_terminates` (NullExact) | proved; exact arithmetic (ExactTies); first d columns independent; any gamma > 2/sqrt 3 |
| C74 | nullspace_hjls terminates with gamma > 2/sqrt 3, and not with its own gamma | as C73 with the last columns kept out of the exchanges (parameter dec), then duality: the columns of the transposed inverse orthogonal to the first ones (Proof/HjlsExact). Negation: Proof/DecAgree (a run only reads what it wrote; iterations are deterministic; a repeated state is repeated for ever), the states of the cycle evaluated by the kernel (Props/HjlsLoop) | `C74_hjls_succeeds`, `C74_hjls_terminates`, `C74_hjls_does_not_return`, `C74_hjls_other_gamma` (HjlsExact, HjlsLoop) | proved; exact arithmetic (ExactTies) and gamma > 2/sqrt 3 for the positive part; for the constant 1.1414 of the code the claim is false: a run on (2 1 1 1) with 53 bits enters a cycle of two states, for all fuels and all uninitialised contents |
| C75 | lehmer_lll: the columns of C span the lattice of A | invariant of the loop on the default (Proof/Lehmer): C = A * W; W unimodular as long as the matrices given to hlll have independent columns, from C01/C02 on the reused object (assign) and C25 for the parallel product; number of rounds by induction on the default | `C75_lehmer_columns`, `C75_lehmer_lattice`, `C75_lehmer_lattice_any`, `C75_prodOk`, `C75_one_round`, `C75_negative_shift`, `C75_delta_irrelevant`, `C75_delta_ignored` (Lehmer) | proved; lattice equality: no truncation, independent columns below the first row; reducedness: exact arithmetic and one round. Defects proved: delta ignored, negative shifts |
| C76 | relations_hjls returns -1 or independent, saturated relations; restarting_hjls miscounts and loses its transformation | block triangular unimodular transformation of the decomposition (C68 infrastructure, Alg with the first d columns fixed), so the selected columns have an integer left inverse (Proof/Hjls); residual by the standard error bound of a scalar product; negations by kernel evaluation of complete runs | `C76_relations_hjls`, `C76_residual`, `C76_restarting`, `C76_restarting_primitive`, `C76_restarting_one`, `C76_restarting_refuses`, `C76_restarting_accepts`, `C76_restart_defect` (Hjls) | proved; long transformations of restarting_hjls modelled without overflow; defects proved by runs evaluated by the kernel |
| C77 | nullspace_lll with several shifts returns independent, saturated relations | invariant of the loop of shifts (Proof/NullShift): B = input * W with W unimodular, from C52 (getU is unimodular in every history with put); zero columns selected as in C71 | `C77_shifts`, `C77_shifts_basis`, `C77_run` (NullShift) | proved; any arithmetic, shift step and digit count; termination of the loop of shifts is not claimed |
| C78 | The parallel Householder factorisation does not depend on the schedule | threads as lists of atomic accesses, interleavings by Interleave.exec_eq (C25 infrastructure); every block order gives the column-by-column sequence (Proof/PHouse); exact arithmetic: comparison with the state of householder() (Proof/PHouseExact, HhAll) | `C78_schedules`, `C78_missing_columns`, `C78_householder`, `C78_zero_column` (PHouse) | proved; schedule independence in any arithmetic, entry by entry; equality with householder() in exact arithmetic for independent columns and S dividing d; defects proved: last d mod S columns not computed, zero columns |
| C79 | Blockwise reduction preserves the lattice of every block, but may leave a block unreduced | induction over the blocks; each one by C01 on an assigned object; lattice of a matrix as supremum of the lattices of its blocks; exact arithmetic by ExReady (C19, C21 infrastructure); negation by kernel evaluation of a run | `C79_blocks`, `C79_reduced`, `C79_terminates`, `C79_not_reduced` (Block) | proved; lattices in any arithmetic; reducedness and termination in exact arithmetic under the profile condition of C19, which the initial matrix of ones was meant to make unnecessary: witness of a block that is not reduced, in 53 bit arithmetic |
| C80 | lift_z: what a reported relation has passed, and relations missed by the first lift | as C36: invariant of the lifts and of the rounds (Proof/RelF), with the log of the quotients; negations by kernel evaluation of complete runs | `C80_parameters`, `C80_relation`, `C80_gap`, `C80_no_overflow`, `C80_first_lift`, `C80_first_lift_missed`, `C80_false_relation`, `C80_returns`, `C80_never_returns` (Lift) | proved; any arithmetic and conversions; the bound printed when no relation is found is not modelled; fplll's reducer is uninterpreted; the reductions run on floating point integers with an arbitrary rounding, as in C36 |
| C81 | Generated real vectors: powers of an algebraic number, relations that exist | loop invariant of the generator; the powers lie in the span of the r s products of powers of the radicals, of dimension at most r s over the rationals; integer relation from linear dependence over the fraction field | `C81_powers`, `C81_relation`, `C81_nan`, `C81_cases`, `C81_simultaneous` (GenAlg) | proved; exact elementary functions (a result that is not a real number is a distinct value); rounding of exp, log by mpfr is not modelled |
| C82 | Segment LLL: what status 0 says about the basis, and bases left as they are | the stop test (no swap in an even and an odd phase) gives blocks that are LLL reduced after conversion of R to integers; conversion error |2^64 R_ij / ||b_0|| - RZ_ij| <= 1 transported to the Gram-Schmidt norms; conversely all blocks stay fixed on a reduced input, any schedule by the Mazurkiewicz argument of C38 | `C82_segment_reduced`, `C82_reduced_input` (SlllExact) | proved; exact arithmetic of R; dpe conversion set_f(RZ, R, 63) with its rounding; dimension a multiple of 2S (no padding) |
| C83 | Mixed real/integer matrices | each operation is right multiplication of the stacked matrix by a transvection or a transposition, product over the history; truncation by two inequalities between powers of 2 and 10 (kernel evaluated pair of exponents); profile by induction over the columns | `C83_column`, `C83_history`, `C83_product`, `C83_copy_shift`, `C83_get_set`, `C83_access`, `C83_get_set_mismatch`, `C83_trunc`, `C83_trunc_small`, `C83_structure`, `C83_epsilon`, `C83_setcol` (Mixed) | proved; integer rows in any arithmetic, real rows in exact arithmetic; (long)(x*0.301029995) by two inequalities; printing not modelled |
| C84 | Relations for tuples with a wide range of magnitudes | loop invariant of the minimum and maximum of the exponents; induction over the iterations of the search: the accuracy reached is at most alpha, the test needs inputgap below it | `C84_gap`, `C84_wide`, `C84_magnitudes`, `C84_zero_entry`, `C84_wide_missed` (InputGap) | proved; any exponent function, conversion, arithmetic and reducer; the exponent of zero is the one of mpfr in the concrete cases |
| C85 | hlll on integers stored in floating point numbers | Model/FloatInt: the entry operations with a rounding function and an exactness flag, in the generic run of Model/Mach; simulation as in C62; bound on all intermediate integers by Proof/MachSmall; lost lattice by a kernel evaluated run with the rounding of double | `C85_exact_run`, `C85_enough_precision`, `C85_reduced_input`, `C85_rounding_loses_lattice` (FloatInt) | proved; any rounding function of the entries; overflow of the exponent is not modelled; size reduction or long flag (set_f copies a number that is not an integer otherwise) |
| C86 | Segment LLL: index safety | flag `ub` of the model of the segment LLL: ranges of the structure, block offsets, tables; invariant `SLSafe` over all phases and calls, converse by monotonicity of the flag | `C86_index_safety`, `C86_index_safety_iff`, `C86_witness` (SlllSafe) | proved; every arithmetic, schedule, storage content and history; number of segments above that of the constructor refuted |
| C87 | Direct calls of the column reductions, threads of seysenreduce0 | Model/ParSey: entry updates of the threads, interleaving by commutation as in C38; Proof/HistX: history invariant closed under the four column reductions; Proof/HhIdem: householder_r idempotent, last pass changes nothing in parallel mode; Proof/Sey0Exact: block solves of the last pass in terms of Gram-Schmidt vectors; Proof/Sey0Seq: sequential blocks are those of seysenreduce; both defects by kernel evaluated runs | `C87_all_schedules`, `C87_histories`, `C87_fresh_in_parallel_mode`, `C87_reduced_in_parallel_mode`, `C87_reduced_in_sequential_mode`, `C87_getU_wrong_in_parallel_mode`, `C87_stale_factor` (Seysen0) | proved; schedules, histories and freshness in any arithmetic; reduction in exact arithmetic; getU in parallel mode and freshness of the factor in sequential mode refuted |
| C88 | Operations on 128-bit integers | Model/Int128: calls on registers, aliasing allowed; induction on the sequence, congruence modulo 2^128 for the ring operations, equality when every value fits | `C88_no_overflow`, `C88_wrapping`, `C88_assign`, `C88_assign_loses`, `C88_randb`, `C88_compare` (Int128) | proved; any sequence of calls; two's complement arithmetic as gcc does; assignment from mpz_t and randb limited to 64 bits |
| C89 | Exchange with NTL: residues, inverse, buffers | Model/Ntl: mpz_nextprime and inv as parameters with a contract; entrywise loop lemma, integer division; A X = det A I; digit counts | `C89_mod_roundtrip`, `C89_mod_product`, `C89_ntl_inv`, `C89_buffers` (Ntl) | proved; mpz_nextprime and NTL's inv are parameters with their documented behaviour; code under NTL_GMP_LIP |
| C90 | Printing numbers with extended exponents | Model/PrintDpe: the two loops over any rounding; relative error per step by induction, interval of the significand | `C90_value`, `C90_exact`, `C90_normalised`, `C90_not_normalised` (PrintDpe) | proved; the significand is what is given to fprintf, which rounds it to a fixed number of decimals |
| C91 | Columns converted to one shared exponent keep their accuracy | Model/SetcolFin: significands are multiples of 2^-w, ldexp rounds to nearest; the shared exponent is that of a nonzero entry; error of the alignment against the largest entry; flush to zero by the exponent of zero | `C91_close`, `C91_lead`, `C91_range`, `C91_int`, `C91_exact`, `C91_tiny`, `C91_flush`, `C91_outside`, `C91_empty`, `C91_getD2exp_split`, `C91_getD2exp_trunc`, `C91_getD2exp_exact` (SetcolFin) | proved; frexp, mpz_get_d_2exp, mpfr_get_d_2exp by their documented contract (concrete model of the truncating one); exponents unbounded |
| C92 | Columns set from extended numbers | Model/DpeCol: significands as in C91, exponents in wrapping 32-bit arithmetic; the shared exponent belongs to a nonzero entry; overflow of INT_MIN - exponent computed by bmod | `C92_close`, `C92_exact`, `C92_outside`, `C92_empty`, `C92_zero`, `C92_zero_addcol`, `C92_zero_addcol_ok`, `C92_addcol`, `C92_addcol_empty`, `C92_addcol_outside`, `C92_normalize`, `C92_normalize_empty`, `C92_normalize_outside`, `C92_normalize_flush` (DpeCol) | proved; int exponents of 32 bits, wrapping around (undefined in C++); normal numbers have exponents below 2^30 in size |
| C93 | Matrices printed in Maple's format | Model/Maple: the printing loops on lists of characters; Spec/MapleRead is a reader character by character; invariants of the reader by induction over entries and rows | `C93_printcol`, `C93_print2maple`, `C93_injective`, `C93_mixed`, `C93_mixed_comma`, `C93_int_plain`, `C93_int` (Maple) | proved; texts of the entries are parameters; integers by their decimal text; the reader of Spec/MapleRead skips blanks |

## 7. Trusted base

Lean 4.33.0's kernel; each property theorem depends at most on the axioms `propext`, `Classical.choice`,
`Quot.sound` (checked with `#print axioms` on every theorem named in MANIFEST.json); no axiom is added, no
compiled evaluation is used. Witnesses are evaluated by the kernel (`decide +kernel` / `rfl`). The rest of the
trust is in the faithfulness of `Model/*` (sections 2–4), the library contracts of section 3 and the
specifications in `Spec/*`.
