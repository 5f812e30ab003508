{"id": "C01", "title": "hlll never changes the lattice", "statement": "Whatever Lattice::hlll returns (0 or -1), the columns of getbase() generate exactly the same lattice (Z-module) as the columns of the matrix passed to the constructor, even if every floating point operation returns an arbitrary value.", "quantifier": "all integer input matrices, all delta, both size-reduction methods, both long flags, all thread counts/thresholds, all behaviours of the floating point arithmetic, all exits", "why_tests_cant": "Tests sample bases and one floating point type; the guarantee must hold when precision is insufficient, for every rounding and on every abnormal exit.", "anchors": ["src/hlll.cc: hlll, hsizereduce, seysenreduce, size_update, psize_update_B, seysen_update", "src/mat.h: subcol addcol addmulcol_si addmulcol_si_2exp colswap"]}
{"id": "C02", "title": "getU is the transformation: A*getU()=getbase()", "statement": "With forU=true and the sequential reductions, input*getU() equals getbase() exactly after any hlll call on a basis with linearly independent columns, for any floating point behaviour.", "quantifier": "all full-column-rank inputs, all floating point behaviours, all exits", "why_tests_cant": "Entry truncation to min(d,nmax) rows of U relies on a structural invariant that must survive every swap history.", "anchors": ["src/hlll.cc: hlll, size_update, seysen_update, getU", "src/mat.h: matrix_structure"]}
{"id": "C03", "title": "getU is unimodular", "statement": "The matrix returned by getU() after hlll has determinant +1 or -1.", "quantifier": "all inputs with independent columns, all floating point behaviours and exits", "why_tests_cant": "A determinant identity over unbounded swap/reduction histories.", "anchors": ["src/hlll.cc: hlll, getU"]}
{"id": "C04", "title": "Volume is preserved", "statement": "The Gram determinant det(B^T B) of getbase() equals that of the input after hlll.", "quantifier": "all inputs, floating point behaviours, exits", "why_tests_cant": "Holds for every history of column operations; sampling cannot exclude a rare path.", "anchors": ["src/hlll.cc: hlll, getbase"]}
{"id": "C05", "title": "Truncated column operations are exact", "statement": "hlll only touches the first structure[i]+1 rows in a column operation; the result is nevertheless the full column operation, and rows below the input's structural profile stay zero in getbase().", "quantifier": "all inputs incl. trapezoidal ones, all histories of swaps", "why_tests_cant": "The profile changes with every swap (structure[k-1]=structure[k]); correctness is an inductive invariant.", "anchors": ["src/mat.h: matrix_structure", "src/hlll.cc: hlll (structure update), size_update, seysen_update"]}
{"id": "C06", "title": "Parallel size reduction equals the sequential column operations", "statement": "With set_num_S(S,...) the row-sliced parallel update of the basis produces exactly the matrix of the sequential update for every number of threads S>=1 and every interleaving of the threads.", "quantifier": "all S, all row counts (also not divisible by S), all schedules", "why_tests_cant": "Thread interleavings and remainders cannot be enumerated by tests.", "anchors": ["src/hlll.cc: hsizereduce, size_update_R, psize_update_B, set_num_S", "src/mat.h: psubcol paddcol paddmulcol_si paddmulcol_si_2exp psubmulcol"]}
{"id": "C07", "title": "getU in parallel mode: unimodular, but not the transformation", "statement": "With set_num_S(S>1, threshold) and forU=true, getU() after hlll is still unimodular for every input with independent columns and any floating point behaviour; the sequential guarantee input*getU()=getbase() does NOT carry over (DEFECT: the parallel path does not update the transformation): there is an input and thread setting for which hlll returns 0 and input*getU() differs from getbase().", "quantifier": "all inputs with independent columns, all thread settings and floating point behaviours; one witness for the defect", "why_tests_cant": "Expected to hold for all inputs; the code leaves U unchanged in the parallel branch (U updates commented out).", "anchors": ["src/hlll.cc: psize_update_B, hsizereduce, getU"]}
{"id": "C08", "title": "Return 0 means LLL-reduced (exact arithmetic)", "statement": "If the arithmetic is exact and hlll(delta) returns with all columns processed, getbase() is delta-LLL-reduced: |mu_ij|<=1/2 and delta*|b*_{k-1}|^2 <= |b*_k + mu b*_{k-1}|^2 for the Gram-Schmidt vectors b*.", "quantifier": "all full-column-rank inputs of any size, all delta, every rounding-to-nearest rule (any tie-breaking)", "why_tests_cant": "Needs the correctness of Householder orthogonalisation, of all its cached data and of the main loop for every history.", "anchors": ["src/hlll.cc: hlll, hsizereduce, size_update, householder_r, householder_v"]}
{"id": "C09", "title": "No spurious failure in exact arithmetic", "statement": "In exact arithmetic and delta<=1, hlll never returns -1: neither the norm-increase anomaly test nor the size-reduction anomaly test can fire.", "quantifier": "all full-rank inputs, all histories", "why_tests_cant": "The anomaly tests are heuristics over histories.", "anchors": ["src/hlll.cc: hlll (Anomaly), hsizereduce"]}
{"id": "C10", "title": "hlll terminates (exact arithmetic)", "statement": "In exact arithmetic with ties rounded to zero at 1/2 and delta<=1, hlll terminates on every full-rank basis.", "quantifier": "all full-rank integer bases of every size", "why_tests_cant": "Termination is not observable by tests.", "anchors": ["src/hlll.cc: hlll, hsizereduce"]}
{"id": "C11", "title": "Short first vector", "statement": "After a 0-return in exact arithmetic with 1/4<delta, |b_1|^2 <= (1/(delta-1/4))^(d-1) * |v|^2 for every nonzero lattice vector v. More generally, for any k independent vectors of the lattice, each of the first k output vectors is at most (delta-1/4)^(-(d-1)/2) times as long as the longest of them.", "quantifier": "all bases and all nonzero lattice vectors", "why_tests_cant": "Universal over an infinite lattice.", "anchors": ["src/hlll.cc: hlll, getbase"]}
{"id": "C12", "title": "Householder orthogonalisation is a QR factorisation (exact arithmetic)", "statement": "householder() followed by getR() gives an upper triangular R with R^T R = B^T B in exact arithmetic, for any structural profile.", "quantifier": "all full-rank bases", "why_tests_cant": "Algebraic identity for every size.", "anchors": ["src/hlll.cc: householder, householder_r, householder_v, getR"]}
{"id": "C13", "title": "Cached orthogonalisation data is never stale", "statement": "At every visit of a column, the R column obtained through the cached data (kept column, kappamin, descendu) is identical to a full recomputation from the current basis.", "quantifier": "all histories of up/down moves and size reductions", "why_tests_cant": "The cache validity depends on unbounded histories.", "anchors": ["src/hlll.cc: householder_r, hlll"]}
{"id": "C14", "title": "Test budget is respected", "statement": "hlll never performs a Lovasz test once nblov reaches nblov_max, and the number of swaps never exceeds the number of tests. (This bounds the number of iterations of the main loop, for any input; it does not bound the running time, see C67.)", "quantifier": "all inputs, budgets, floating point behaviours", "why_tests_cant": "Must hold on every execution.", "anchors": ["src/hlll.cc: hlll, set_nblov_max", "src/hlll.h: nblov nbswaps nblov_max"]}
{"id": "C15", "title": "Tests count determines swaps", "statement": "When hlll completes from nblov=0, nblov = (d-1) + 2*(swaps) - (swaps at the first position); in particular nblov=d-1 iff no swap was done.", "quantifier": "all completed runs", "why_tests_cant": "Path-counting identity over all executions.", "anchors": ["src/hlll.cc: hlll, isreduced"]}
{"id": "C16", "title": "What isreduced's answer means", "statement": "For every object, history and floating point behaviour: isreduced returns 0 or -1 and leaves the lattice and verboseDepth unchanged; if its internal reduction completed, it returns 0 exactly when no swap was done; in exact arithmetic a 0 means that the basis is delta-LLL-reduced after adding to columns integer combinations of previous ones. DEFECTS: the status of the internal reduction is ignored (0 can be answered after a failed reduction that swapped), and with one column R(0,1) is read out of range.", "quantifier": "all histories, inputs and floating point behaviours; witnesses for the defects", "why_tests_cant": "The status of hlll is ignored by isreduced; only an all-paths argument shows when it matters.", "anchors": ["src/hlll.cc: isreduced, hlll"]}
{"id": "C17", "title": "verboseDepth is restored", "statement": "On every exit hlll restores the global verboseDepth; nested reductions (wrappers) leave it unchanged.", "quantifier": "all exits and nestings", "why_tests_cant": "All control paths.", "anchors": ["src/hlll.cc: hlll", "src/wrappers.h: hlll, slll", "src/defs.h: verboseDepth"]}
{"id": "C18", "title": "Index safety in every history", "statement": "In every history of calls on an object constructed on an n x d basis with n>=d, all indices used on the basis, the transformation, the floating point matrices and the bookkeeping vectors are in range; the blocks of the Seysen reduction never reach below column 0.", "quantifier": "all inputs, histories and floating point behaviours", "why_tests_cant": "Out-of-range reads are undefined behaviour and typically invisible to tests.", "anchors": ["src/hlll.cc: hlll, hsizereduce, householder_r, householder_v, size_update"]}
{"id": "C19", "title": "assign on a used object", "statement": "After any history of calls followed by assign(A) or shift_assign, hlll behaves exactly as on a new object constructed on A with the same options (returns or not, status, base, transformation, number of tests), for every arithmetic, if each new basis has independent columns and, when hlll has run since the storage was allocated, its first column reaches at least as low as every column of the basis it replaces. DEFECT: assign does not clear the floating point copy, and without that condition hlll; assign(A); hlll can return 0 on a basis that is not size-reduced whereas a fresh object on A is reduced.", "quantifier": "all histories, bases, options and floating point behaviours; witness for the defect", "why_tests_cant": "Depends on hidden state left by arbitrary earlier runs.", "anchors": ["src/hlll.cc: assign, shift_assign, init, householder_r"]}
{"id": "C20", "title": "shift and the transformation", "statement": "After shift(A,m,sigma) on an object with forU=true, getU() has unit diagonal and keeps every off-diagonal entry it had; hence it is the identity iff the off-diagonal part was already zero (DEFECT: after a reduction it is not reset to the identity).", "quantifier": "all earlier histories; witness for the defect", "why_tests_cant": "Hidden state.", "anchors": ["src/hlll.cc: shift, getU"]}
{"id": "C21", "title": "Histories of API calls preserve the assigned lattice", "statement": "For any sequence of hlll, set_nblov_max, set_num_S and assign calls, getbase() generates the lattice of the most recently assigned basis; interrupting and resuming with test budgets is harmless.", "quantifier": "all finite API call sequences", "why_tests_cant": "Unbounded histories.", "anchors": ["src/hlll.cc: assign, hlll, set_nblov_max, set_num_S"]}
{"id": "C22", "title": "Seysen method in parallel mode only permutes", "statement": "With reduction_method>=1 and set_num_S(S!=1, threshold<=1), getbase() after hlll is a permutation of the input columns for every input and floating point behaviour (DEFECT: no column is ever size-reduced; status 0 can be returned on a non-size-reduced basis).", "quantifier": "all inputs, floating point behaviours and thread settings; witness for the defect", "why_tests_cant": "The parallel branch is commented out.", "anchors": ["src/hlll.cc: seysenreduce"]}
{"id": "C23", "title": "Seysen multipliers without the long flag", "statement": "With long_flag=0 and reduction_method>=1 the multiple of column i subtracted from the basis column is the conversion of a member variable left over from earlier (possibly never initialised), not of the rounded multiplier just computed, unless that multiplier is 0, 1 or -1 (DEFECT: the result depends on uninitialised memory).", "quantifier": "all states and floating point behaviours; witness of the dependence", "why_tests_cant": "The wrong variable (a stale member x) is converted.", "anchors": ["src/hlll.cc: seysen_update"]}
{"id": "C24", "title": "Block partition is a partition", "statement": "For any m and number of block rows nbr, the blocks used by getblock/putblock tile the index range: every index in exactly one block, sizes differ by at most one; get after put returns the block and leaves other blocks untouched. setblock copies a block of one matrix on a block of another and changes nothing else.", "quantifier": "all m, nbr>=1, all block indices", "why_tests_cant": "All divisibility cases.", "anchors": ["src/mat.h: getblock putblock setblock"]}
{"id": "C25", "title": "Parallel matrix products equal the sequential product", "statement": "For every number of threads and every interleaving: pmatprod_in_int and tpmatprod_in_int compute C*U resp. its transposed variant; pmatprod(C,U,S,t) computes C*U when t is a multiple of S and S<=dimension; pmaprod_diag(C,U,S,t) computes C*U for block diagonal U with S blocks.", "quantifier": "all matrices, sizes, thread counts and schedules", "why_tests_cant": "Remainders and interleavings.", "anchors": ["src/mat.h: pmatprod_in_int matprod_in_int pmatprod"]}
{"id": "C26", "title": "pmatprod_in multiplies only S*(m/S) rows", "statement": "pmatprod_in(C,U,S) computes C*U on the first S*(m div S) rows of C for every schedule; the last m mod S rows are left unmultiplied (DEFECT), so that the result is C*U when S divides the number of rows and in general only then.", "quantifier": "all matrices, thread counts and schedules; witness for the dropped rows", "why_tests_cant": "Fails only when S does not divide the number of rows.", "anchors": ["src/mat.h: pmatprod_in"]}
{"id": "C27", "title": "128-bit integer conversion round-trips", "statement": "Converting a 128-bit integer to mpz never changes the value; mpz to 128-bit keeps a value iff it lies in [-2^127,2^127); both round trips are the identity there.", "quantifier": "all integers", "why_tests_cant": "Domain is too large to enumerate.", "anchors": ["src/nr_Z_l128.h: mpz_get_128int mpz_set_128int"]}
{"id": "C28", "title": "128-bit decimal printing is faithful", "statement": "Printing a 128-bit integer yields its decimal representation, within the 128 char buffer.", "quantifier": "all 2^128 values", "why_tests_cant": "Domain is too large.", "anchors": ["src/nr_Z_l128.h: operator<<"]}
{"id": "C29", "title": "128-bit to double-double has a sign error", "statement": "set_z from a 128-bit integer a to dd_real stores hi=double(a) and lo=double(hi-a) (DEFECT: opposite of the remainder): the represented value is exact iff a is a double, and otherwise wrong by at least (2-2^-53)|hi-a|, where the right sign would give 2^-53|hi-a|.", "quantifier": "all 128-bit integers and every rounding to 53 bits; witness 2^53+1", "why_tests_cant": "Wrong only for values not representable in a double.", "anchors": ["src/nr_Z_l128.h: set_z dd_real"]}
{"id": "C30", "title": "Narrowing casts of integer matrices", "statement": "matrix_cast to long / 128-bit preserves an entry iff it fits; an error is reported iff some entry is outside (-2^63,2^63) resp. (-2^127,2^127), hence never silently loses an entry (the smallest integer is preserved but reported). The conversion from 128 bits is exact.", "quantifier": "all integer matrices", "why_tests_cant": "Boundary values.", "anchors": ["src/mat.h: matrix_cast maxbitsize"]}
{"id": "C31", "title": "maxbitsize bounds every entry", "statement": "maxbitsize(A) is the least b>=1 with |a_ij|<2^b for all entries (1 for a nonempty zero matrix), and 0 iff A is empty.", "quantifier": "all integer matrices", "why_tests_cant": "All sizes.", "anchors": ["src/mat.h: maxbitsize"]}
{"id": "C32", "title": "Truncation keeps leading digits", "statement": "lift_truncate multiplies the first row by 2^def and divides all entries by one common 2^k rounding down; k=0 for bits<=0, otherwise every column keeps at least bits+2 bits and some column is not larger than 2^(bits+2). DEFECTS: the long version wraps silently, the 128-bit version checks overflow only for bits>0. trunc divides the upper part by 10^(k1+k2) and the lower part by 10^k2 rounding towards zero, 10^k1<=2^tau, keeping t bits when t>0, and gives an identity lower part for t<0.", "quantifier": "all integer matrices and parameters", "why_tests_cant": "All parameter combinations.", "anchors": ["src/mat.h: lift_truncate trunc"]}
{"id": "C33", "title": "matrix_structure is the monotone column profile", "statement": "matrix_structure returns the least nondecreasing profile bounding the supports of the columns.", "quantifier": "all matrices", "why_tests_cant": "All zero patterns.", "anchors": ["src/mat.h: matrix_structure"]}
{"id": "C34", "title": "Integer relations are relations", "statement": "When relation_lll reports a relation C for the integers L_1..L_d, C is a column of an integer matrix W accumulated over all lifting steps, of least exact residual |L.W| among its columns, for any floating point behaviour, thread schedule and truncation. W is unimodular, hence C primitive, for mpz_t without truncation (truncate=-1) or for FPLLL with a unimodular external reducer; with truncation W need not be unimodular. For a real tuple x converted with error eta, |x.C| <= 2^-alpha (|L.C| + eta sum|c_j|).", "quantifier": "all inputs, all parameters, any number of lifting steps, all arithmetics and schedules", "why_tests_cant": "universal over numeric behaviours, schedules and numbers of lifting steps", "anchors": ["src/relations_z.cc: relation relation_lll", "src/mat.h: lift_truncate"]}
{"id": "C35", "title": "Relation search terminates", "statement": "For shift>0 the search does at most ceil(alpha/shift) reductions, exactly that many if it reports nothing, and it returns whenever the reductions return and lift_truncate does not exit; for alpha<=0 it does none and returns 0; for shift<=0<alpha it can only end by reporting a relation.", "quantifier": "all alpha, shift, inputs, arithmetics", "why_tests_cant": "termination and exact iteration counts over all parameters", "anchors": ["src/relations_z.cc: relation_lll"]}
{"id": "C36", "title": "FPTuple_f: relations, and ignored parameters", "statement": "FPTuple_f::relation ignores its sizemethod and delta (DEFECT: both calls pass delta in the position of sizemethod): the outcome does not depend on them and every reduction uses 0.99 and method (int)0.99. When a relation C is reported it is the first column of an integer matrix W, and W is unimodular (C primitive) if conversions to long are exact or exceed 50 bits and, for HLLL, coefficients stay below 2^53 and no operation on the floating point integers is rounded (with rounding a non primitive or a zero column can be reported), for FPLLL, the reducer is unimodular. The test passed is exactly: |L.C| (1 if zero) over the largest coefficient of the first column of the last reduced matrix (last row excepted), divided by the same quotient of the preceding lift (2^alpha for the first), is below 2^(-confidence_gap - sh) with 0 < sh <= shift. The 50 bit guard excludes any 64 bit overflow of the accumulated products for d<=8192. The search returns for shift>0, increment>0 when reductions do, and never returns for shift<=0<alpha.", "quantifier": "all inputs, parameters, arithmetics, conversions, numbers of rounds and lifts", "why_tests_cant": "universal over parameter values, numeric behaviours and numbers of lifting steps", "anchors": ["src/relations_f.cc: relation relation_f_z detect_lift_f_z", "src/relations_f.h"]}
{"id": "C37", "title": "Wrapper reductions preserve the lattice in every dimension", "statement": "The hlll wrapper returns a basis of the input lattice for every dimension d (all three dimension-dependent strategies).", "quantifier": "all d, all inputs, all floating point behaviours", "why_tests_cant": "Strategies switch at d=330 and 430: too big for tests.", "anchors": ["src/wrappers.h: hlll"]}
{"id": "C38", "title": "Segment LLL: lattice and schedules", "statement": "When SLattice(A,S,...).hlll returns, for every schedule of its parallel regions and every floating point behaviour: the status, getbase(), getU(), R and the test counters do not depend on the schedule; the status is 0 or a gap position in [3,d); verboseDepth is restored; every vector of getbase() is in the lattice of A; getbase() generates the lattice of A when 2S divides the number of columns, or when no returned vector has a coordinate in the padding rows. The unconditional claim (getbase() generates the lattice of A) is false: the padding vectors can replace the vectors of A (witness), and getU() is not the transformation (witness).", "quantifier": "all inputs, all S, all schedules, all floating point behaviours", "why_tests_cant": "Parallel blocks, padding and an unbounded number of phases; all interleavings.", "anchors": ["src/slll.cc: hlll, reduce_and_gap_detect, pmatprod, pseysen_update_B, SLattice, getbase, getU", "src/mat.h: putblock getblock"]}
{"id": "C39", "title": "Segment wrappers: recursion and lattice", "statement": "slll_wrap_gap never nests deeper than gap_position calls, whatever gaps the floating point tests report; slll_wrap_gap, slll_wrap and slll<mpz_t> return (whenever the reductions they call do) vectors of the lattice of A, a basis of it when no segment reduction mixed its padding with the vectors returned, and restore verboseDepth.", "quantifier": "all inputs, dimensions (one to three phases), thresholds, gap reports, schedules and floating point behaviours", "why_tests_cant": "Unbounded recursion and loops over all dimensions.", "anchors": ["src/slll-wrap.h: slll_wrap_gap slll_wrap", "src/wrappers.h: slll"]}
{"id": "C40", "title": "lcond does not restore the default precision", "statement": "After lcond(tproper, flagprec, flagheur) the global default mpfr precision is unchanged for flagprec<=0; it is flagprec for flagprec>=2 without heuristic (the restoring statement follows return), 2*d*maxbitsize for flagprec=1, and the object's own precision (not the previous default) with the heuristic check. With the heuristic check it returns the value at the first of the precisions 0,p,2p,... whose value is repeated at the next one, and never returns if no two successive values agree.", "quantifier": "all argument combinations, arithmetics, bases, previous default precisions", "why_tests_cant": "leaked global state only shows in later unrelated computations; the heuristic loop depends on an unbounded sequence of precisions", "anchors": ["src/hlll.cc:lcond"]}
{"id": "C41", "title": "Quality ratios", "statement": "In exact arithmetic and for 0<d<=n independent columns, ratio returns || |R| |R^-1| ||_F with R the triangular factor of the basis and R^-1 its true inverse; max_ratio is the largest quotient of successive Gram-Schmidt lengths; av_ratio is their sum divided by d (not d-1); c is (||b_1||/vol^(1/d))^(1/d); the default precision is left at 2d.", "quantifier": "all full rank integer bases", "why_tests_cant": "the quantities are reals over an unbounded set of bases", "anchors": ["src/ratio.h:ratio"]}
{"id": "C42", "title": "Recursive L1 preserves the lattice", "statement": "When l1(B,A,leafbits) returns, B=A*U with U unimodular (same lattice), at every recursion depth, for every truncation and every floating point behaviour (HLLL on independent columns, or FPLLL with a unimodular reducer). It returns for leafbits>=0 when the reductions do, and never returns for leafbits<0.", "quantifier": "all inputs with independent columns, recursion depths, truncations and arithmetics", "why_tests_cant": "unbounded recursion over a stateful reduction object, all numeric behaviours", "anchors": ["src/l1.h: l1 rec", "src/hlll.cc: put"]}
{"id": "C43", "title": "hlll over shared-exponent matrices", "statement": "Each operation of MatrixPE (one exponent per column), in exact significand arithmetic, gives on the rows it is asked to update the values that the same operation of matrix<FP_NR<FT>> gives, and leaves other columns alone; rows of the target outside the range are not kept but multiplied by a power of two. Nevertheless hlll over MatrixPE does exactly what it does over matrix<FP_NR<FT>>: same termination, status, base, transformation and counters, hence a reduced basis.", "quantifier": "all matrices, exponents, ranges; all bases of independent columns, options and delta", "why_tests_cant": "exponent alignment cases, and corrupted rows that must never be read by any later step of the reduction", "anchors": ["src/matpe.h: set setcol addcol subcol submulcol fmasub div colswap fp_norm scalarprod", "src/hlll.cc: hlll, householder_r, householder_v"]}
{"id": "C44", "title": "Command line tool outputs a basis of the input lattice", "statement": "The hplll program prints the transposed reduced basis generating the row lattice of its input.", "quantifier": "all inputs", "why_tests_cant": "Universal.", "anchors": ["src/hplll.cc: main", "src/mat.h: transpose"]}
{"id": "C45", "title": "matcmp decides equality up to row signs, except for leading zeros", "statement": "matcmp(B1,B2,c,r) returns 1 iff each of the r rows of B2 equals the row of B1, or is its opposite and starts with a nonzero entry, and 0 otherwise (DEFECT: opposite rows starting with 0 are declared different).", "quantifier": "all integer matrices", "why_tests_cant": "All sign patterns.", "anchors": ["src/mat.h: matcmp"]}
{"id": "C46", "title": "Matrix helpers compute what they say", "statement": "transpose, setId, isId, set, all the variants of matprod and shift_in compute transposition, identity, test for identity, copy, matrix product and multiplication of the first rows by a power of two, for all sizes; set(B,A,n,d1,d2) copies columns d1+1..d2-1 only (column d1 is skipped).", "quantifier": "all integer matrices and sizes", "why_tests_cant": "must hold for all sizes and entries", "anchors": ["src/mat.h: transpose, setId, isId, set, matprod, matprod_in, matprod_in_int, shift_in"]}
{"id": "C47", "title": "lcond(ANY) is an upper bound but reads uninitialised storage", "statement": "In exact arithmetic 2^lcond(ANY,DEFAULT_PREC) exceeds the condition number of the triangular factor of any full rank basis, whatever the fresh storage of iR contains, and is within a factor 2 of it when that storage is zero; but for d>=2 the value depends on the storage and can be arbitrarily large.", "quantifier": "all full rank bases, all contents of fresh storage", "why_tests_cant": "depends on the content of uninitialised memory", "anchors": ["src/hlll.cc:lcond"]}
{"id": "C48", "title": "lcond(TRIANGULAR_PROPER) is an upper bound for proper bases", "statement": "For every upper triangular basis with non-zero diagonal whose entries do not exceed the diagonal entry of their row, lcond(TRIANGULAR_PROPER,DEFAULT_PREC) is an upper bound on log2 of the condition number in exact arithmetic; without the condition on the rows it is not.", "quantifier": "all upper triangular integer bases of any dimension", "why_tests_cant": "a bound over all dimensions and entries", "anchors": ["src/hlll.cc:lcond"]}
{"id": "C49", "title": "isreduced prints the best Lovasz parameter", "statement": "In exact arithmetic and for at least two independent columns, the delta printed by isreduced is the largest delta<=1 for which the basis satisfies the Lovasz conditions.", "quantifier": "all full rank bases with d>=2", "why_tests_cant": "an optimality statement over all reals and bases", "anchors": ["src/hlll.cc:isreduced"]}
{"id": "C50", "title": "FPTuple::lll returns a best column", "statement": "FPTuple::lll always returns 0; with HLLL, for every arithmetic, the C it writes is a column of a unimodular matrix W with the least residual |L.W| (the same with FPLLL when the external reducer is unimodular).", "quantifier": "all tuples, precisions and arithmetics", "why_tests_cant": "universal over inputs and numeric behaviour", "anchors": ["src/relations_z.cc: lll"]}
{"id": "C51", "title": "Swap counter of the segment LLL under races", "statement": "SLattice::nbswaps, incremented by all the threads of a phase without synchronisation, ends between the count of one of the blocks and the true total; it is exact with one thread and can lose updates with two; nothing else depends on it (C38).", "quantifier": "all numbers of threads and blocks, all interleavings of the memory accesses", "why_tests_cant": "Lost updates depend on the schedule.", "anchors": ["src/slll.cc: hlll (nbswaps += BR.nbswaps)"]}
{"id": "C52", "title": "put keeps the old profile", "statement": "In every history of calls including put of arbitrary matrices, getU stays unimodular (if the constructor and assign were given independent columns). put(T) then hlll gives T*getU, a basis of the lattice of T, when the columns of T do not reach below the profile of the previous basis; DEFECT: otherwise hlll can return 0 with a basis of another lattice, because put does not recompute the column profile.", "quantifier": "all histories, matrices and arithmetics; witness for the defect", "why_tests_cant": "depends on hidden state (column profile) left by earlier calls", "anchors": ["src/hlll.cc: put, size_update, hlll"]}
{"id": "C53", "title": "Results do not depend on uninitialised storage", "statement": "Two objects built and used with the same calls give the same results (termination, status, base, transformation, number of tests) whatever the floating point storage allocated by the constructor and by setprec contains, for every arithmetic, for the size reduction method or Seysen with fast long arithmetic. DEFECT: Seysen without fast long applies the never written member x to the basis, so that the result depends on uninitialised memory.", "quantifier": "all memory contents, histories of calls on bases of independent columns, arithmetics; witness for the defect", "why_tests_cant": "a test sees one content of memory", "anchors": ["src/hlll.cc: init, setprec, householder_r, seysen_update, hlll"]}
{"id": "C54", "title": "Reducing a reduced basis changes nothing; isreduced decides reducedness (exact arithmetic)", "statement": "In exact arithmetic (ties at 1/2 not rounded away), size reduction method, delta<=1, after any history of exact calls: hlll(delta) on a basis that is already delta-LLL-reduced returns 0 with getbase() unchanged entry by entry, no swap, exactly d-1 Lovasz tests and getU() unchanged, so hlll is idempotent (also when called again with a smaller delta). isreduced(delta) always returns, and returns 0 exactly when the current basis becomes delta-LLL-reduced by adding to columns integer combinations of the previous ones. For both methods and any rounding of ties, a basis reduced up to size reduction is reduced without a swap.", "quantifier": "all full rank integer bases, all exact call histories, all delta<=1, all exact arithmetics", "why_tests_cant": "Idempotence and the equivalence with the mathematical definition range over all bases and all histories; tests can only sample outputs.", "anchors": ["src/hlll.cc: Lattice::hlll", "src/hlll.cc: Lattice::isreduced", "src/hlll.cc: Lattice::hsizereduce"]}
{"id": "C55", "title": "Which command-line bases can be reduced, whatever the random numbers", "statement": "command_line_basis builds a basis with independent columns, at least as many rows as columns: for every outcome of the random generator with the default -type (knapsack) and with triangular input of non-zero diagonal; for block knapsack (rb) exactly when m<=d and the m x m block of the drawn numbers is non-singular (m>d is out of range); for -type u only if m>=d and the drawn matrix has independent columns (so never with the default m=1, d=8); for -type dec never with -m 0; for Coppersmith (-type c) exactly when -h, -N, -X are given and the numbers drawn satisfy X!=0 and (N!=0 or h=1), the determinant being prod N^(h-1-i/3) X^i; an unknown type leaves the dimension uninitialised. genalpha's basis has |mu|<=1/2+1/(2 diag), not always <=1/2. For every such good basis the program prints a delta-LLL-reduced basis of the generated lattice (exact arithmetic).", "quantifier": "all dimensions, arguments and outcomes of the random generator", "why_tests_cant": "Seeds are fixed in tests: they see one outcome of the generator; the claim is for all outcomes and all argument values.", "anchors": ["src/matgen.cc: command_line_basis", "src/matgen.cc: genalpha", "src/hplll.cc: main"]}
{"id": "C56", "title": "What isreduced prints is true of the basis (exact arithmetic), except eta after a failed test", "statement": "For a basis of d>=2 independent columns, isreduced prints: the largest delta<=1 for which the Lovasz conditions hold; the norm of the first vector and the volume (square root of the Gram determinant); an eta such that the basis is (eta,theta)-weakly size-reduced, |r_ij| <= eta r_ii + theta r_jj; and, when eta^2<delta, an alpha with ||b*_i|| <= alpha ||b*_{i+1}||, hence ||b_1||^d <= alpha^(d(d-1)/2) Vol(L). When the answer is -1, the second block shows delta, ||b_1|| and the volume of the basis after the internal reduction (the volume is unchanged) and a number of 'non-trivial swaps' between once and twice the true number of swaps; its eta is wrong: entries are divided by a signed diagonal, negative diagonals are ignored (eta = 0 is printed for the hexagonal lattice, and the printed alpha is then not a bound). The messages do not influence the result.", "quantifier": "all bases of independent columns, all histories, all thetas >= 0", "why_tests_cant": "The claims compare printed numbers with extremal quantities (largest delta, valid bound alpha) over all bases; a test can only look at individual outputs.", "anchors": ["src/hlll.cc: Lattice::isreduced", "src/isreduced.cc: main"]}
{"id": "C57", "title": "Arithmetic of extended-exponent long doubles (FP_NR<ldpe_t>) is correctly rounded, also in place", "statement": "Operations on FP_NR<ldpe_t>, whose operands may be the same variable as the result, change only the result. On normalised operands add, sub, mul, div, neg, abs and sqrt give a normalised number; product, quotient and square root are the nearest number with 64 bits; a sum or difference is within 2^-64 of the result, relatively, and is the nearest one except exactly when the larger operand is a power of two, the other has opposite sign, an exponent smaller by 65 and a mantissa above 1/2 (the comment in the code claims there is no exception). With exponents below 2^30 in absolute value everything is defined, except that multiplying zero by a number of negative exponent, or dividing zero by a number of positive exponent, overflows a signed int (undefined behaviour).", "quantifier": "all normalised operands, all aliasings of the three variables", "why_tests_cant": "Correct rounding is a statement on 2^160 pairs of operands; the exceptional case has probability about 2^-70 on random operands.", "anchors": ["src/ldpe.h: ldpe_add, ldpe_sub, ldpe_mul, ldpe_div, ldpe_sqrt, ldpe_neg, ldpe_abs, ldpe_normalize", "src/nr-ld.cpp: FP_NR<ldpe_t>::add, sub, mul, div, sqrt, neg, abs"]}
{"id": "C58", "title": "Comparisons of FP_NR<ldpe_t> are the order of values on normalised numbers, not on every zero", "statement": "On normalised numbers cmp, <=, >=, sgn and the comparison with a double are the order of the values. Zeros are not always normalised: the conversion of the integer 0, the square root of 0 and 0*2^e (e>0) give zeros with another exponent; for any such zero sgn is negative, it compares as less than zero, and adding to it a number whose exponent is smaller by more than 64 gives zero. 0*2^e with e<0 overflows the exponent.", "quantifier": "all pairs of normalised numbers; all zeros with an exponent other than the least one", "why_tests_cant": "The order must hold for all pairs; the defect needs the zero to come from particular functions and is invisible when printing.", "anchors": ["src/ldpe.h: ldpe_cmp, ldpe_cmp_d, ldpe_sqrt, ldpe_mul_2si, ldpe_add", "src/nr-ld.cpp: set_z, FP_NR<ldpe_t>::cmp, sgn, operator<=, operator>="]}
{"id": "C59", "title": "Roundings and conversions of FP_NR<ldpe_t>: where they are exact and where they are not", "statement": "rnd, floor, ceil of a normalised number give the nearest integer (ties away from zero), the floor, the ceiling, exactly for absolute values up to 2^53 and from 2^63 on; between, the integer is replaced by the nearest one with 53 bits, so that floor(y)>y, ceil(y)<y and rnd(y)!=y for some integers y; frac is rounded to 53 bits as well and can be 1. get_si_exp gives exponent 0 and the truncated value below 2^63 and, from there on, a long times a power of two which drops the bits after the 63rd; the long never overflows. set_f to mpz is exact from 2^63 on and the nearest integer below, except that the value -1 writes past the end of a two-byte array and that values rounding to 2^63 are out of the range of lround; from long double, every value from 2^63 on is out of range. set_z from mpz is exact up to 64 bits, has relative error at most 2^-64+2^-79 otherwise, and is not always the nearest number. size_in_bits of a nonzero machine integer is the number of bits minus one, that of an mpz is the number of bits.", "quantifier": "all normalised numbers, all integers", "why_tests_cant": "Each statement characterises the function on all inputs; the bad inputs are single values (-1, 2^63-1/2) or need more than 53 significant bits.", "anchors": ["src/ldpe.h: ldpe_round, ldpe_floor, ldpe_ceil, ldpe_frac, ldpe_get_si_exp, ldpe_get_z, ldpe_get_z_exp, ldpe_swap", "src/nr-ld.cpp: set_f, set_z, FP_NR<ldpe_t>::get_si_exp, size_in_bits"]}
{"id": "C60", "title": "The Seysen method outputs a Seysen-reduced basis satisfying the Lovász conditions, and terminates", "statement": "With exact arithmetic, hlll(delta) on an object created with a Seysen reduction_method (>=1), the long flag and one thread (or a threshold at least d), when it returns 0 within the test budget, leaves in getbase() a basis of the input lattice that satisfies the Lovász conditions and every column of which is Seysen-reduced with constant 1/2 (on each binary block of the previous columns, the coordinates of the projection are at most 1/2); in particular consecutive Gram-Schmidt coefficients are at most 1/2 and the first vector is at most (delta-1/4)^(-(d-1)/2) times any nonzero lattice vector. For delta<=1 the call terminates, with the same bound as the size reduction method.", "quantifier": "all bases of full column rank, dimensions, delta, options of the constructor, amounts of fuel", "why_tests_cant": "The guarantee is over all lattices and all block decompositions; a test sees particular bases and rounding, and cannot show termination.", "anchors": ["src/hlll.cc: hlll, seysenreduce, seysen_update, householder_r, householder_v"]}
{"id": "C61", "title": "hlllp: same lattice, transformation, reducedness and termination, and equality with hlll below the threshold", "statement": "For every arithmetic, hlllp(delta, dthreshold) returns 0 or -1, leaves in getbase() a basis of the same lattice with the same Gram determinant, respects the test budget, leaves verboseDepth unchanged, accesses no index out of range when d<=n, and getU() is the unimodular transformation for sequential settings; with the size reduction method or a threshold at least d-1 it computes exactly what hlll(delta) computes. With exact arithmetic, an answer 0 within the budget means: Lovász conditions; LLL-reduced with the size reduction method; with the Seysen method every column beyond the threshold is Seysen-reduced with the constant 0.501 of the code and the others with 1/2 (long flag, sequential). It never returns -1 for delta<=1, satisfies the swap bound and terminates, and the first vector is at most (delta-c^2)^(-(d-1)/2) times any nonzero lattice vector.", "quantifier": "all bases, thresholds, delta, arithmetics (first part), exact arithmetic (second part)", "why_tests_cant": "hlllp is a second main loop next to hlll with its own reduction; equality with hlll and the guarantees concern all inputs.", "anchors": ["src/hlll.cc: hlllp, newseysenreduce, seysenreduce, hsizereduce"]}
{"id": "C62", "title": "hlll on machine integers: same as on unbounded integers unless an operation overflows", "statement": "Consider hlll(delta) on a lattice whose entries are w-bit integers (long, __int128_t). If no integer operation leaves the type (and no conversion does), the call does exactly what the same call on mpz_t entries does (basis, transformation, status, counters, floating point state), so it preserves the lattice. With wrapping operations and no undefined conversion, the returned basis is congruent modulo 2^w to a unimodular transformation of the input (given by getU() for sequential settings), so the Gram determinant is preserved modulo 2^w, but the lattice may be lost silently: for (-2,5),(2^63-1,2^63-1) on long the call returns 0 and a basis of another lattice. With exact arithmetic, size reduction and delta<=1, wrapping is harmless when (d+3)*max|b_j|^2 < 2^(2w): the result is that of the mpz_t run; with 1/4 < delta and sequential settings no operation overflows at all (even with the strict rule) when (1+d*T)*g fits in the type and T in a long, where g^2 >= (d+3)/4*max|b_j|^2, q^2(delta-1/4) >= 1, T = (3/2)^d (g q^d + 1/2) (for the transformation: also (1+d*T)*D*g, D bounding the coordinates of lattice vectors by their norm); on a reduced basis no integer operation is executed at all.", "quantifier": "all bases with entries in the type, widths w>=2, options, arithmetics, amounts of fuel (last sentence: exact arithmetic)", "why_tests_cant": "Overflow happens inside column reductions for inputs near the limits of the type and leaves no trace in the result; absence of it must hold for all inputs below a bound.", "anchors": ["src/hlll.cc: hlll, hsizereduce, size_update, seysenreduce", "src/nr_Z_l128.h: Z_NR<__int128_t>", "src/mat.h: submulcol, addmulcol_si, addmulcol_si_2exp", "src/wrappers.h: hlll<long>, hlll<__int128_t>"]}
{"id": "C63", "title": "The vectors do not swell", "statement": "With exact arithmetic, size reduction (reduction_method<1), delta<=1 and independent columns, at whatever point hlll returns (also when the test budget stops it), every vector of getbase() has squared norm at most (d+3)/4 times the largest squared norm of the input vectors.", "quantifier": "all bases, delta<=1, test budgets, options of the constructor", "why_tests_cant": "A bound for every intermediate stop point and every lattice; tests sample a few bases.", "anchors": ["src/hlll.cc: hlll, hsizereduce, size_update, householder_r, householder_v"]}
{"id": "C64", "title": "In floating point, the cached factors left by hlll are the factorisation of the returned basis, and every test holds on them", "statement": "Run hlll(delta) in any arithmetic in which operations with the number zero are exact (IEEE double or long double, mpfr, dpe; nothing is assumed about accuracy). When it returns 0 within its test budget on independent columns (at least two), the floating point factors it leaves are exactly, bit for bit, what the Householder factorisation of getbase() computed from scratch with the same operations gives: no value cached before a swap or a size reduction survives. On these factors every Lovasz test (evaluated in the same arithmetic) succeeds, and with the size reduction method every column passes the final size test (all rounded quotients zero, or no quotient above the anomaly bound). getR() equals entry for entry getR() of a new object built on getbase() after householder() (when no division by zero occurs).", "quantifier": "all arithmetics with exact operations on zero, all full column rank bases with at least two columns, delta, options of the constructor, test budgets, memory contents before the call", "why_tests_cant": "The caches (descendu, kappamin, col_kept, the swapped columns of V and R) are reused along an unbounded history of swaps; a stale entry changes nothing visible in most runs, and rounding hides it.", "anchors": ["src/hlll.cc: hlll, hsizereduce, householder_r, householder_v, householder, getR", "src/hlll.h: Lattice"]}
{"id": "C65", "title": "Backward stability: getR() is the exact factor of a nearby basis, reduced up to rounding", "statement": "In a floating point arithmetic with unit roundoff u (standard model: every operation is exact up to a relative error u, no overflow nor underflow), when hlll(delta) returns 0 within its test budget on independent columns and the diagonal of getR() has no zero, there is an orthogonal matrix Q such that for every column j of R=getR(), |Q R_j - b_j| <= ((1+e)^(j+1)(1+u)-1)|b_j| where b=getbase() and e=3((1-u)^-(6n+18)-1); this relative error is at most 72(n+3)(j+2)u as long as that is at most 1. Moreover R satisfies the Lovasz conditions with delta((1-u)/(1+u))^2, and with the size reduction method each column satisfies |R_ik| <= |R_ii|/(2(1-u)) for all i<k, or the weak condition of the anomaly test up to rounding. The same backward error bound holds for getR() after householder() on any basis.", "quantifier": "all arithmetics satisfying the standard model with exact operations on zero, all unit roundoffs u<1, dimensions, full column rank bases, delta>=0, options of the constructor", "why_tests_cant": "A bound on accumulated rounding errors for every dimension, precision and input; tests compare a few digits on a few bases.", "anchors": ["src/hlll.cc: hlll, householder_r, householder_v, householder, hsizereduce, getR", "src/mat.h: scalarprod, fmasub, normalize_sqrt"]}
{"id": "C66", "title": "Sufficient precision: the basis returned by floating point hlll is truly reduced", "statement": "In a floating point arithmetic with unit roundoff u (standard model), suppose hlll(delta) returns 0 within its test budget on independent columns, the diagonal of R=getR() has no zero and its quotients satisfy |R_ik| <= eta |R_ii| for i<k. Let c>=1 with c^2 (delta((1-u)/(1+u))^2 - eta^2) >= 1, e=(1+3((1-u)^-(6n+18)-1))^d(1+u)-1 < 1 and g = d e/(1-e) (c(1+eta))^(d-1). Then the length of every real combination of the columns of getbase() is the length of the same combination of the columns of R up to a relative error g. If g<1, the exact Gram-Schmidt vectors b*_k of getbase() satisfy the Lovasz conditions with delta((1-u)/(1+u))^2((1-g)/(1+g))^2 and |mu_ij||b*_j| <= eta|b*_j| + theta|b*_i| with theta=(2g+g^2)/(1-g)^2 (c(1+eta))^(d-1); |R_kk| is |b*_k| up to a relative error g; and the first vector of getbase() is at most c^(d-1)/((1-e)(1-g)) times as long as any nonzero vector of the input lattice.", "quantifier": "all arithmetics satisfying the standard model with exact operations on zero, dimensions, full column rank bases, delta>=0, eta, c meeting the stated inequalities, options of the constructor", "why_tests_cant": "A guarantee about exact Gram-Schmidt quantities deduced from computed ones, for all precisions and dimensions; a test can only compare with another floating point computation.", "anchors": ["src/hlll.cc: hlll, householder_r, householder_v, hsizereduce, getR, getbase"]}
{"id": "C67", "title": "When hlll returns, and when it does not", "statement": "For every arithmetic, hlll returns if and only if the reduction of the current column returns in each iteration the run gets to; the main loop itself always ends. The size reduction of a column does not always return: in double precision (53 bits, round to nearest) with delta=0.99, hlll never returns on the 7x7 upper triangular basis with columns (40), (19,35), (19,17,31), (19,17,15,27), (19,17,15,13,24), (19,17,15,13,11,22), (0,0,0,0,0,11,1), whatever the test budget above 5. In any arithmetic with unit roundoff u, (1-u)^-(2n+6) <= 21/20, and independent columns, a run (method 0) that does not return keeps modifying one single column of a basis of the input lattice, whose exact squared length is divided by more than 9 at least once in any two successive passes and infinitely often multiplied by more than 9 in a single pass.", "quantifier": "all arithmetics (first part), all arithmetics of the standard model with exact operations on zero, dimensions, full column rank bases, deltas, options with method 0 (last part); one basis for the run without end, all step counts", "why_tests_cant": "That a run never ends cannot be observed; that all the others end is about all inputs.", "anchors": ["src/hlll.cc: hsizereduce (1137-1280), hlll (38-277), set_nblov_max"]}
{"id": "C68", "title": "FGAS decompositions apply a unimodular transformation", "statement": "For a d x n matrix with 0 < d < n, dec < d and targetdim <= d - dec: whatever ZFgas::decomp returns, no index is out of range, getbase() is the input times a unimodular matrix U (so it generates the same lattice), getU() is U (TRANSFORM) and getV() is its inverse transpose (without). For Fgas::decomp (n <= d + dec when there is a residue), getV() is unimodular and with transform getV()^T getU() = 1; when the operations on the entries are exact, the decomposed matrix is the input times U and the residue is the initial residue times V^T. With d = n an index is out of range.", "quantifier": "all inputs, dimensions, floating point behaviours of both types, contents of uninitialised storage, values of gamma and of the confidence gap, return values", "why_tests_cant": "Must hold for every input and every rounding behaviour, including the failing exits.", "anchors": ["src/decompz.cc: decomp hsizereduce householder getU getV getbase", "src/decomp.cc: decomp hsizereduce householder getU getV", "src/decompz.h", "src/decomp.h"]}
{"id": "C69", "title": "nullspace_direct_decomp returns -1 or a saturated family of relations", "statement": "For a d x n matrix A, 0 < d < n, nullspace_direct_decomp either returns -1 and leaves C unchanged, or returns n-d and C is an n x (n-d) matrix with A C = 0, independent columns, and containing every integer vector that has a nonzero multiple in the lattice of C; then C is a basis of the integer kernel if and only if A has rank d. It may return -1 although rank A = d: A = (10^10, 1), because of the confidence gap.", "quantifier": "all integer matrices, floating point behaviours, uninitialised contents", "why_tests_cant": "Saturation and completeness quantify over all integer vectors, and over all rounding behaviours.", "anchors": ["src/nullspace.cc: nullspace_direct_decomp", "src/decompz.cc: decomp"]}
{"id": "C70", "title": "nullspace_hjls and nullspace_indirect_decomp return -1 or a saturated family of relations", "statement": "For a d x n matrix A, 0 < d < n, each of nullspace_hjls and nullspace_indirect_decomp either returns -1, or returns n-d and C is an n x (n-d) matrix with A C = 0, independent columns and a saturated lattice; then C is a basis of the integer kernel if and only if A has rank d. For nullspace_indirect_decomp this holds whatever the content of the uninitialised entries of the matrix given to the decomposition by fgasgen.", "quantifier": "all integer matrices, floating point behaviours of both types, uninitialised contents", "why_tests_cant": "Saturation and completeness quantify over all integer vectors, and over all rounding behaviours.", "anchors": ["src/nullspace.cc: nullspace_hjls nullspace_indirect_decomp fgasgen", "src/decomp.cc: decomp", "src/decompz.cc: decomp"]}
{"id": "C71", "title": "nullspace_lll returns relations, and all of them with a large enough shift", "statement": "With a unique shift and HLLL, nullspace_lll either returns -1 and leaves C unchanged, or returns k >= n-d and C is an n x k matrix with A C = 0, independent columns and a saturated lattice; if A has rank d, C is then a basis of the kernel. In exact arithmetic and for a matrix A of any rank: if (1/(delta-1/4))^(n-1) N < 4^alpha, where N bounds the squared lengths of some n - rank A independent relations, the call ends and C is a basis of the integer kernel (if hlll stays within its default budget of tests). A shift that is too small makes it return -1.", "quantifier": "all integer matrices, shifts; all floating point behaviours (first part), exact arithmetic (second part)", "why_tests_cant": "Saturation quantifies over all integer vectors; completeness is about all inputs of any size.", "anchors": ["src/nullspace.cc: nullspace_lll", "src/hlll.cc: hlll"]}
{"id": "C72", "title": "Fgas::set does not reset the transformation", "statement": "After set(A) on an Fgas object in any state, with exact operations on the entries, decomp decomposes A into A U with U unimodular, but getU() is K U, where K has ones on its diagonal and the off-diagonal entries of the transformation left by the previous decomposition (same for getV()). So getU() and getV() are the transformation of the new matrix only if the previous ones were diagonal: there is a run where a decomposition stopped by the size test, set, and a second decomposition give A getU() different from the decomposed matrix.", "quantifier": "all objects, matrices, floating point behaviours (general statement); one run (negation)", "why_tests_cant": "Depends on the history of the object; the general statement covers all of them.", "anchors": ["src/decomp.cc: set decomp getU getV", "src/mat.h: resize", "src/hjls.cc: restarting_hjls"]}
{"id": "C73", "title": "nullspace_direct_decomp terminates and finds the kernel in exact arithmetic", "statement": "In exact arithmetic, for a d x n matrix A, 0 < d < n, whose first d columns are independent and of norm at most B, with gamma > 2/sqrt 3 and 0 < gap <= B^(-d): nullspace_direct_decomp ends, returns n-d, and the columns of C are a basis of the integer kernel of A. The main loop makes at most N + d + 1 iterations, for any N with (1/4 + 1/gamma^2)^N < B^(-d(d+1)), and each size reduction at most two passes.", "quantifier": "all integer matrices of any size with independent first columns, all gamma, gaps and uninitialised contents; exact arithmetic", "why_tests_cant": "Termination and success for every input; a potential argument over unbounded executions.", "anchors": ["src/nullspace.cc: nullspace_direct_decomp", "src/decompz.cc: decomp hsizereduce householder"]}
{"id": "C74", "title": "nullspace_hjls terminates with gamma > 2/sqrt 3, and not with its own gamma", "statement": "In exact arithmetic, for a d x n matrix A, 0 < d < n, whose last d columns are independent and whose rows have norm at most B, if the constant of the exchanges is larger than 2/sqrt 3 and 0 < gap <= B^(-n), nullspace_hjls ends, returns n-d, and the columns of C are a basis of the integer kernel of A. The constant of the code, 1.1414, is smaller than 2/sqrt 3 = 1.1547...: with it, on A = (2 1 1 1) and the default 53 bits, nullspace_hjls never returns, whatever the uninitialised memory contains.", "quantifier": "all integer matrices of any size with independent last columns, all gamma > 2/sqrt 3, gaps and uninitialised contents (exact arithmetic); for the negation all numbers of iterations on one input", "why_tests_cant": "Termination for every input is a potential argument over unbounded executions; a test that does not end does not show that no later iteration would have ended.", "anchors": ["src/nullspace.cc: nullspace_hjls", "src/decompz.cc: decomp hsizereduce householder"]}
{"id": "C75", "title": "lehmer_lll: the columns of C span the lattice of A", "statement": "If lehmer_lll(C,A,delta,lshift,truncate,S) returns, it returns 0, C has the size of A and its columns are integer combinations of those of A, for every arithmetic, truncation and thread schedule; with lshift > 0 it performs exactly ceil(bits/lshift) reductions, bits being the largest bit size of A. Without truncation, if the rows of A below the first have independent columns (or if A has independent columns and no reduced matrix has a zero first column), C is a basis of the lattice of A. In exact arithmetic, with independent columns, one round (lshift >= bits) gives a 0.99-LLL-reduced basis. Two limits of the code: with lshift != 0 the argument delta is ignored (the result is the same for all delta, and need not be delta-reduced), and with lshift < 0 lehmer_lll never returns.", "quantifier": "all integer matrices of any size, all shifts, numbers of rounds, arithmetics (rounding, uninitialised contents), truncation and lifting functions, schedules of the parallel product", "why_tests_cant": "The preservation of the lattice must hold through any number of rounds of truncation and reduction with any rounding errors and any schedule of the parallel product; a run that does not end cannot be observed by a test.", "anchors": ["src/lehmer.cc: lehmer_lll", "src/hlll.cc: hlll assign getU", "src/mat.h: lift_truncate maxbitsize pmatprod_in_int"]}
{"id": "C76", "title": "relations_hjls returns -1 or independent, saturated relations; restarting_hjls miscounts and loses its transformation", "statement": "For a d x n floating point matrix A, 0 < d < n, and nbrel <= n-d, relations_hjls never indexes out of range and returns -1 or nbrel, whatever the arithmetics, precision and uninitialised memory. If it returns nbrel, the columns of C are linearly independent, miss no integer vector of their span, and every entry of A*C computed in the precision of A is not larger than epsilon; with correctly rounded operations the true entries are at most epsilon plus (1-u)^-(n+1)-1 times the sum of the absolute values of the terms. restarting_hjls returns -1 or nbrel, and nbrel exactly when one and only one column passes the test: for nbrel = 1 the relation is valid up to rounding, for nbrel = 2 two valid relations are refused ((1 1 1)) and a wrong one is accepted ((1 2^-60 1)). Without restart its columns are independent and saturated; after a restart the transformation is corrupted: on (2^-58 12 7*2^-58) it returns -1 where relations_hjls finds (-7,0,1).", "quantifier": "all matrices of any size, all numbers of relations up to n-d, all arithmetics of both floating point types, uninitialised contents and numbers of iterations; the negations on concrete inputs with 300 and 400 bits", "why_tests_cant": "The saturation of the relations and the bound on the residual must hold for every rounding behaviour and every execution of the decomposition; tests only compare a few known relations.", "anchors": ["src/hjls.cc: relations_hjls restarting_hjls", "src/decomp.cc: decomp set getV getU", "src/mat.h: matprod matprod_in_si"]}
{"id": "C77", "title": "nullspace_lll with several shifts returns independent, saturated relations", "statement": "If nullspace_lll(C,A,lalpha,lsigma) with lsigma != 0 returns, no index was out of range, the value is a number k >= n-d (never -1), and C is an n x k matrix of linearly independent integer relations of A which misses no integer vector of their span; it is a basis of the integer kernel exactly when k = n - rank A, in particular whenever A has rank d. This holds although each reduction of the loop works on a basis truncated to lsigma+n bits, in an object that keeps the profile of the first basis.", "quantifier": "all integer matrices, initial shifts, shift steps (positive or negative), numbers of rounds, arithmetics and digit counts of the truncation", "why_tests_cant": "Truncation and a stale profile make the working bases wrong; the relations are right only because every accumulated transformation is unimodular, which must hold for every rounding behaviour and any number of rounds.", "anchors": ["src/nullspace.cc: nullspace_lll", "src/hlll.cc: put hlll getU", "src/mat.h: shift_in trunc matprod_in"]}
{"id": "C78", "title": "The parallel Householder factorisation does not depend on the schedule", "statement": "phouseholder(S) of the segment reducer computes, in any arithmetic, columns of R and V that depend neither on how the threads are interleaved nor on the number of blocks. When S divides d and the columns are independent, in exact arithmetic, R and V are those of householder(), so R is triangular with R^T R = B^T B. Otherwise it fails: the last d mod S columns keep their previous contents, and a column that becomes zero leaves part of its reflection to what the object contained before.", "quantifier": "all integer bases, dimensions, block counts, arithmetics, previous contents of the object and interleavings of the memory accesses of the threads", "why_tests_cant": "A data race shows only under particular interleavings of the threads; the claim is about all of them, and about all bases and block counts.", "anchors": ["src/slll.cc: phouseholder householder"]}
{"id": "C79", "title": "Blockwise reduction preserves the lattice of every block, but may leave a block unreduced", "statement": "When blevel(B, Ain, bs, dec) returns, every block of bs columns of B generates the lattice of the same block of Ain, the blocks before dec are copied, and B generates the lattice of Ain if bs divides d; the last d mod bs columns of B are never written. In exact arithmetic it returns, and every block from dec on is LLL-reduced if the first column of each block reaches at least as low as the columns of the block before; without this condition a block of the output may be unreduced, because the reused object keeps the rows of the previous block (the dense matrix given to the constructor does not prevent it).", "quantifier": "all integer matrices, block sizes, starting blocks, previous contents of B and (for the lattices) arithmetics", "why_tests_cant": "The stale rows only matter for particular successions of profiles; lattice preservation must hold for all matrices and rounding behaviours.", "anchors": ["src/block.h: blevel", "src/hlll.cc: assign hlll"]}
{"id": "C80", "title": "lift_z: what a reported relation has passed, and relations missed by the first lift", "statement": "Every reduction of lift_z uses the delta given. When lift_z(C, A, ...) reports C, C is the first column of an integer matrix, unimodular (so C is primitive) under the conversion conditions of C36; |A.C| (1 if zero) over the largest coefficient of the first column of the last reduced matrix (last row excepted) is below 10, and its ratio to the same quotient of the preceding lift (1 for the first) is below 2^(-confidence_gap). Consequently (DEFECT) a relation with coefficients at most 2^confidence_gap that is present after the first lift is not reported by it, for any alpha; relation_f_z reports it. C may fail to be a relation. When nothing is reported C is unchanged. Accumulated 64 bit products do not overflow for d<=8192. lift_z returns for shift>0, increment>0 when reductions do, and never returns for shift<=0<alpha.", "quantifier": "all inputs, parameters, arithmetics, conversions, external reducers, numbers of rounds and lifts", "why_tests_cant": "universal over parameter values, numeric behaviours and numbers of lifting steps", "anchors": ["src/lift.cc: lift_z lift_f_z", "src/lift.h"]}
{"id": "C81", "title": "Generated real vectors: powers of an algebraic number, relations that exist", "statement": "In exact arithmetic gen3r2s(v, n, r, s) with r, s >= 1 gives the powers 1, a, ..., a^(n-1) of a = 3^(1/r) - 2^(1/s) when 2^r < 3^s, and these have a nonzero integer relation as soon as n > r s (the dimension used by the tests is r s + 1). When 3^s < 2^r (the only other case; DEFECT) all entries but the first are not numbers (logarithm of a negative number). gen3r2s7t5u gives, for all r, s, t, u >= 1, the powers of -|3^(1/r) - 2^(1/s)| and -|7^(1/t) - 5^(1/u)|, with relations for n > r s, n > t u, and a common one for n > r s + t u.", "quantifier": "all r, s, t, u, n", "why_tests_cant": "existence of a relation is a statement about real algebraic numbers, for all degrees; a test sees rounded values only.", "anchors": ["src/matgen.cc: gen3r2s gen3r2s7t5u", "src/matgen.h"]}
{"id": "C82", "title": "Segment LLL: what status 0 says about the basis, and bases left as they are", "statement": "In exact arithmetic, R being converted to integers by set_f(RZ, R, 63) (dpe), when 2S and the constructor's 2S0 divide d, method < 1, 1/4 < delta <= 1 and lovmax >= d/S: if hlll(delta, S, nbthreads, lovmax) of SLattice returns 0 then, whatever the schedule of the threads, getbase() generates the lattice of the input, is size reduced, and its Gram-Schmidt norms satisfy sqrt(delta - 1/4) (||b*_j|| - e) <= ||b*_{j+1}|| + e with e = sqrt(2)/2^64 ||b_0||; hence ||b_0|| (sqrt(delta - 1/4)^(d-1) - 22/2^64) <= ||v|| for every nonzero v of the lattice. Conversely the call returns status 0 when the Gram-Schmidt norms of the input do not decrease (delta <= 1 - 2^-60), for every schedule.", "quantifier": "all full rank bases A, dimensions, S, delta, schedules of the parallel sections, fuel", "why_tests_cant": "reducedness for every basis and every interleaving of the blocks, with a conversion error that only shows when the profile of R spreads over 64 bits.", "anchors": ["src/slll.cc: hlll", "src/matpe.h: set_f", "src/hlll.cc: hlll"]}
{"id": "C83", "title": "Mixed real/integer matrices", "statement": "On a MatrixRZ with d real rows above m integer rows: a sequence of whole-column operations (addcol, subcol, submulcol, addmulcol_si, addmulcol_si_2exp, colswap on two different columns in range) multiplies the integer rows by a unimodular matrix which depends on the operations only, whatever the floating point arithmetic of the real rows, and all the rows by the same matrix in exact arithmetic; an operation of length l changes the rows before l of column j only; matprod_in is the product by U; set(N) copies, shift(a) multiplies the real rows by 2^a. matrix_structure is the least nondecreasing profile of the supports of the columns. mixed_trunc(B, A, t, tau), t >= 0, divides real rows by 10^(k1+k2) and integer rows by 10^k2 (toward zero) with 10^k1 <= 2^tau, k2 = 0 for t = 0; for t > 0 either k2 = 0 or an entry keeps t bits, and all the entries are at most 100*2^t; for t < 0 the integer rows are those of the identity, and the call is out of range exactly when m > n. shift_epsilon(bits) is 2^(bits-prec) and leaves the default precision at that of the entry (0,0). setcol from a mixed column converts rows beg..beg+l-1, and also overwrites rows d..beg-1 when beg > d. set(i,j,z) writes integer row i-d although get(i,j) reads integer row i.", "quantifier": "all matrices, sequences of operations, dimensions, lengths, t, tau, precisions", "why_tests_cant": "dispatch of an operation on the two parts depends on d, l for every history; sizes after truncation involve a decimal approximation of a power of two for all bit lengths.", "anchors": ["src/matmixed.h: MatrixRZ, matprod_in, mixed_trunc, matrix_structure", "src/mat.h: setcol (mixed)", "src/mixed-col.h: mixed_col"]}
{"id": "C84", "title": "Relations for tuples with a wide range of magnitudes", "statement": "Constructing an FPTuple from a nonempty vector records the largest difference between the exponents of two entries; the construction is undefined exactly for an empty vector or when that difference does not fit in a long, as with a zero entry next to an entry of magnitude at least 1/2. relation(C, alpha, ...) on the object reports a relation only if alpha is more than the difference of the exponents of every two entries, hence for nonzero real entries |x_i| < 2^alpha |x_j| for all i, j; in all other cases it returns 0 and leaves C as it was, even if the lattice contains a relation which is reported for a larger alpha.", "quantifier": "all tuples, exponent functions, conversions, arithmetics, reductions, parameters alpha, gapbits, shift, truncate, methods", "why_tests_cant": "the bound on the accuracy reached holds over all numbers of iterations of the search, whatever the reductions return.", "anchors": ["src/relations_z.cc: FPTuple::FPTuple, FPTuple::relation, relation_lll"]}
{"id": "C85", "title": "hlll on integers stored in floating point numbers", "statement": "Consider hlll(delta) on a lattice whose entries are floating point numbers with integer values (double, long double, as in relation_f). If no operation on an entry is rounded, the call does exactly what the same call on mpz_t entries does, so it preserves the lattice. Otherwise the lattice may be lost silently: for (-2,5),(2^53-1,2^53-1) on double the call returns 0 and a basis of another lattice. With exact arithmetic, size reduction, sequential settings and 1/4 < delta <= 1 no operation is rounded when the integers up to M are represented, T < 2^63 and T, (1+d*T)*g (for the transformation (1+d*T)*D*g) are at most M, with g, T, D as for machine integers; on a reduced basis no operation on entries is done.", "quantifier": "all bases with representable entries, roundings, options, arithmetics, amounts of fuel (last sentence: exact arithmetic)", "why_tests_cant": "whether an intermediate result is rounded depends on every multiplier of every column reduction; absence of rounding must hold for all inputs below a bound.", "anchors": ["src/nr_Z_ld.h: Z_NR<long double>", "src/hlll.cc: hlll, hsizereduce, size_update", "src/mat.h: addmulcol_si, addmulcol_si_2exp, submulcol", "src/relations_f.cc: relation_f"]}
{"id": "C86", "title": "Segment LLL: index safety", "statement": "For n >= d >= 1, no call of SLattice::hlll(delta, S, nbthreads, lovmax) with 1 <= S <= S0 (S0 the number of segments given to the constructor) uses an index out of range, in any history of such calls: neither in the object (basis, transformations, floating point matrices, structure, tables) nor in the block lattices it creates. On a fresh object a call that returns was in range exactly when d <= n and 1 <= S <= S0. DEFECT: S <= S0 is not checked, and with more segments the call writes beyond the end of swapstab.", "quantifier": "all dimensions, bases, arithmetics, schedules, contents of uninitialised storage, parameters and histories of calls", "why_tests_cant": "Out of range accesses are silent, and depend on dimension, number of segments and history.", "anchors": ["src/slll.cc: SLattice hlll init seysenreduce pseysen_update_B pmatprod swapstab", "src/slll.h: SLattice"]}
{"id": "C87", "title": "Direct calls of the column reductions, threads of seysenreduce0", "statement": "(1) The parallel update of a column in seysenreduce0 gives, for every number of threads and every interleaving of the entry updates, the sequential result: each not bounded column contributes a fixed integer multiple; with the long flag this is the multiplier itself, without it, unless it is +-1, the member x of the object. (2) After any history of hlll, hlllp, assign, shift_assign, set_nblov_max, set_num_S, setprec, householder and of direct calls of hsizereduce, seysenreduce, seysenreduce0, newseysenreduce on columns 1 <= kappa < d, getbase() generates the lattice of the last basis assigned, the transformation stays unimodular (and is the right one if no set_num_S was parallel), verboseDepth is unchanged and all indices were in range. (3) When every block takes the parallel branch, a call that returns returns 0 and leaves the factor of the current basis (recomputing it from scratch changes nothing), in any arithmetic; in exact arithmetic, on a new object after householder(), the column is then Seysen-reduced with constant 0.50001(1 + 1e-11 |b_kappa| / min |b*_j|) and the other columns are unchanged. (4) With the long flag and every block in the sequential branch, in exact arithmetic, it returns 0 and the column is Seysen-reduced with constant 1/2 even after the last pass. DEFECTS: in parallel mode seysenreduce0 does not update the transformation; in sequential mode the update ignores the marks of bounded columns, so that the pass after which the call returns may change the basis and leave a stale factor.", "quantifier": "all bases, columns, schedules, thread counts, arithmetics, member contents and histories of calls", "why_tests_cant": "Interleavings, histories and the rounding of the arithmetic are not enumerable; a stale factor is silent.", "anchors": ["src/hlll.cc: seysenreduce0 seysen_update_R pseysen_update_B hsizereduce seysenreduce newseysenreduce hlllp", "src/hlll.h: Lattice public methods"]}
{"id": "C88", "title": "Operations on 128-bit integers", "statement": "Consider any sequence of the operations of Z_NR<__int128_t> (assignment, add, sub, neg, mul, mul_si, mul_2si, addmul, addmul_si, submul, abs, randb), with any aliasing of the objects. (1) If every value to be written fits its type, every object ends with the value of the same computation on unbounded integers. (2) Without abs and right shifts, an object ends with the right value iff that value fits in 128 bits, even if intermediate results overflow (two's complement), and otherwise with its residue modulo 2^128. (3) cmp and == are order and equality; abs is the absolute value iff the operand is not -2^127. DEFECTS: the assignment of an mpz_t keeps the value iff it fits in 64 bits (2^64 becomes 0, although the conversion used by matrix_cast keeps it); randb(bits) stores the number drawn modulo 2^63.", "quantifier": "all sequences of calls, all values and aliasings", "why_tests_cant": "The domain of values and the set of sequences are infinite or too large.", "anchors": ["src/nr_Z_l128.h: Z_NR<__int128_t> add sub neg mul mul_si mul_2si addmul addmul_si submul abs cmp operator= operator== randb"]}
{"id": "C89", "title": "Exchange with NTL: residues, inverse, buffers", "statement": "With p from next2prime(p, bits): (1) zzmat_to_ntlp followed by ntlp_to_zzmat gives back an entry a iff 2^bits - p <= a < 2^bits, hence every matrix with entries of absolute value < 2^bits, whatever the targets contained; a product computed modulo p and lifted is the integer product if that product has entries < 2^bits. (2) NTL_inv(V,U) gives U^-1 when det U = 1. DEFECT: when det U = -1 it gives the opposite of the inverse (NTL returns (det, X) with U X = det I and det is dropped). (3) The texts written fit the buffers str and y.", "quantifier": "all matrices, dimensions, bit sizes, and all functions satisfying the documented behaviour of mpz_nextprime and of NTL's inv", "why_tests_cant": "Infinite domains; the library functions are only known by their documentation.", "anchors": ["src/mat.h: next2prime zzmat_to_ntlp ntlp_to_zzmat NTL_inv"]}
{"id": "C90", "title": "Printing numbers with extended exponents", "statement": "hplllprint on v = mant 2^e2 (dpe_t or ldpe_t) prints zero iff v = 0, and otherwise the sign of v, a significand d and an exponent e10 with (1-u)^|e2| |v| <= d 10^e10 <= (1+u)^|e2| |v|, u the relative error of a division or product by ten (so exactly |v| without rounding). For a normalised v with e2 /= 0, 1 <= d <= 10 (d < 10 without rounding). With e2 = 0 the significand is less than 1 (0.5*10^(0)).", "quantifier": "all numbers and exponents, all roundings with relative error u (monotone and exact on 1 and 10 for the bounds on d)", "why_tests_cant": "Exponents are unbounded and the error accumulates with them.", "anchors": ["src/nr-ld.cpp: hplllprint"]}
{"id": "C91", "title": "Columns converted to one shared exponent keep their accuracy", "statement": "MatrixPE::setcol on integer or real entries, with significands of p bits (53 or 64) and smallest positive significand 2^-w (w = 1074 or 16445). If the column has no zero entry in the range, or an entry of size >= 1, every stored entry is within 2^(1-p) relatively, plus 2^(1-w) times the largest entry, of the given one; the column is not stored as zero and one of its entries within a factor 4 of the largest keeps relative accuracy 2^(1-p) with a significand of size >= 1/2; no significand exceeds 1 in size. Integer columns of at most w-p-1 bits have no error but the conversion of each entry, integers below 2^p are stored exactly. Not held otherwise: a real column with a zero entry and all others below 2^-(w+2) is stored as the zero column, whatever the rounding, and an entry 2^(w+2) times smaller than another one is stored as zero. Rows outside the range keep their significand.", "quantifier": "all columns, ranges, precisions and ranges of significands, roundings to nearest", "why_tests_cant": "Loss depends on the ratio of the entries and on the exponent of zero; tests use integer entries of moderate size.", "anchors": ["src/matpe.h: MatrixPE::setcol"]}
{"id": "C92", "title": "Columns set from extended numbers", "statement": "MatrixPE::setcol from an array of normalised dpe_t (ldpe_t) numbers stores every entry within 2^-w times the largest one, and exactly every entry which is at least 2^(p-w) times all the others; zeros among the entries do no harm. normalize keeps every entry within 2^-w times the largest one or 1/2; columns with all entries below 2^-(w+1) become zero. addcol on columns with exponents below 2^30 in size gives the sum up to the rounding of the addition and 2^-(w+1) units of the larger exponent, and touches no other row. A column of zeros gets exponent INT_MIN: adding then a column with positive exponent overflows the difference of exponents and the result is zero whatever is added (wrapping int arithmetic); with an exponent which is not positive the sum is the added column.", "quantifier": "all columns, lengths, significand precisions p and ranges w, roundings to nearest; 32-bit wrapping exponents", "why_tests_cant": "Overflow of the exponent difference needs a zero column from this very method; underflow needs extreme ratios.", "anchors": ["src/matpe.h: MatrixPE::setcol addcol normalize"]}
{"id": "C93", "title": "Matrices printed in Maple's format", "statement": "print2maple(B, n, d) and printcol(B, n, beg, k) write a text which, read with Maple's syntax for matrices, is the n x d matrix (the columns beg..beg+k), entry for entry; different matrices give different texts. For a matrix with a real and an integer part, print2maple(B, k, l) is the first k rows, except when k is the number of real rows: then the last row is followed by a comma and the text is not a matrix.", "quantifier": "all dimensions with at least one column, all texts of entries without comma or closing bracket (decimal integers in particular)", "why_tests_cant": "The separators depend on the position of the row and on the split of the matrix; tests look at one printed matrix.", "anchors": ["src/mat.h: print2maple printcol", "src/matpe.h: print2maple printcol", "src/matmixed.h: print2maple"]}
