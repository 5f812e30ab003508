import Verif.Model.Slll
import Verif.Model.Wrap
/-!
# Model of src/slll-wrap.h and of the wrapper `slll<mpz_t>` (src/wrappers.h:598-785)

`slll_wrap` discovers the columns one at a time; each new basis is reduced by segments (`SLattice`), and
`slll_wrap_gap` is called when a gap is detected.  `ZT = mpz_t`.
-/

namespace HPLLL

/-- Outcome of a function: some reduction does not return, the recursion is deeper than allowed, or a
result. -/
inductive WrapRes (α : Type) where
  | loops
  | tooDeep
  | done (a : α)

/-- Arithmetic of the reductions, `delta` and `0.99` in it, content of fresh storage, and the schedules of the
parallel regions of each segment reduction (identified by its path of calls). -/
structure SegArith (F : Type) where
  o : FPOps F
  c : SCst F
  junk : F
  delta : F
  d99 : F
  sched : List Nat → Sched

variable {F G H : Type} (w : SegArith F)

/-- Ghost: some vector of `getbase()` has a non-zero coordinate in the padding rows. -/
def mixedPad (n k : Nat) (L : SLat F) : Bool :=
  (List.range' n (L.lat.n - n)).any fun i => (List.range k).any fun j => L.lat.B j i != 0

/-- `SLattice L(T, S, NO_TRANSFORM, method)`, `gap_status = L.hlll(delta, S, S, 1000000)`, `L.getbase()`
(slll-wrap.h:67-69, 199-216): gap, basis, `verboseDepth`, ghost flag. -/
def segReduce (path : List Nat) (fuel S : Nat) (method : Int) (n k : Nat) (T : Mat Int) (vd : Int) :
    Option (Nat × Mat Int × Int × Bool) :=
  match (newSLattice w.o w.junk n k T S false method true vd).hlll w.o w.c (w.sched path) w.junk fuel w.delta S
      1000000 with
  | none => none
  | some (g, L) => some (g, L.getbase.M, L.lat.verboseDepth, mixedPad n k L)

/-- `slll_wrap_gap(C, A, gap_position, S, delta, method)` (slll-wrap.h:40-111), `d` the number of columns of `A`.
Result: `C`, `verboseDepth`, ghost flag. -/
def slllWrapGap (fuel S : Nat) (method : Int) (n : Nat) :
    Nat → List Nat → Nat → Nat → Mat Int → Int → WrapRes (Mat Int × Int × Bool)
  | 0, _, _, _, _, _ => .tooDeep
  | depth + 1, path, d, gap, A, vd =>
    match segReduce w path fuel S method n gap (copyCols n 0 gap A fun _ _ => 0) vd with
    | none => .loops
    | some (g, B, vd, mx) =>
      match (if 2 ≤ g then slllWrapGap fuel S method n depth (1 :: path) gap g B vd
             else .done (B, vd, false)) with
      | .loops => .loops
      | .tooDeep => .tooDeep
      | .done (B, vd, mx2) =>
        match reducePhase w.o w.junk fuel w.d99 method n d
            (copyCols n gap d A (copyCols n 0 gap B fun _ _ => 0)) vd with
        | none => .loops
        | some (C, vd) => .done (C, vd, mx || mx2)

/-- Size reduction of the last column of `B` (slll-wrap.h:176-190): `getbase()`, `verboseDepth`.  The values
returned by the reductions are ignored. -/
def sizeLast (fuel : Nat) (method : Int) (n k : Nat) (B : Mat Int) (vd : Int) : Option (Mat Int × Int) :=
  let s := newLattice w.o w.junk n k B false method true vd
  let s := (List.range (max 1 (k - 1))).foldl (fun s i => (s.hhR w.o i).hhV w.o i) s
  match (if method < 1 then hsizereduce w.o fuel (k - 1) 0 s else seysenreduce w.o fuel (k - 1) s) with
  | none => none
  | some (_, s) => some (s.getbase.M, s.verboseDepth)

/-- One iteration `k` of the loop of `slll_wrap` (slll-wrap.h:154-239). -/
def slllWrapStep (depth fuel S : Nat) (method : Int) (n k : Nat) (A C : Mat Int) (vd : Int) :
    WrapRes (Mat Int × Int × Bool) :=
  match sizeLast w fuel method n k (copyCols n (k - 1) k A (copyCols n 0 (k - 1) C fun _ _ => 0)) vd with
  | none => .loops
  | some (B, vd) =>
    match segReduce w [k] fuel S method n k B vd with
    | none => .loops
    | some (g, C, vd, mx) =>
      if 2 ≤ g then
        match slllWrapGap w fuel S method n depth [1, k] k g C vd with
        | .loops => .loops
        | .tooDeep => .tooDeep
        | .done (C, vd, mx2) => .done (C, vd, mx || mx2)
      else .done (C, vd, mx)

/-- The loop `for (k = d1 + 1; k <= d; k++)` (slll-wrap.h:154-239), `m` iterations from `k` on. -/
def slllWrapLoop (depth fuel S : Nat) (method : Int) (n : Nat) (A : Mat Int) :
    Nat → Nat → Mat Int → Int → Bool → WrapRes (Mat Int × Int × Bool)
  | 0, _, C, vd, mx => .done (C, vd, mx)
  | m + 1, k, C, vd, mx =>
    match slllWrapStep w depth fuel S method n k A C vd with
    | .loops => .loops
    | .tooDeep => .tooDeep
    | .done (C, vd, mx2) => slllWrapLoop depth fuel S method n A m (k + 1) C vd (mx || mx2)

/-- `slll_wrap(C, A, dthreshold, S, delta, method)` (slll-wrap.h:122-252). -/
def slllWrap (depth fuel dthreshold S : Nat) (method : Int) (n d : Nat) (A : Mat Int) (vd : Int) :
    WrapRes (Mat Int × Int × Bool) :=
  let d1 := min d dthreshold
  match reducePhase w.o w.junk fuel w.delta method n d1 (copyCols n 0 d1 A fun _ _ => 0) (vd - 1) with
  | none => .loops
  | some (C, vd) =>
    match slllWrapLoop w depth fuel S method n A (d - d1) (d1 + 1) C vd false with
    | .loops => .loops
    | .tooDeep => .tooDeep
    | .done (C, vd, mx) => .done (C, vd + 1, mx)

/-- Reductions of `slll<mpz_t>` (wrappers.h:622-751), `p1`, `p2` the constants `DIM_PREC_1`, `DIM_PREC_2`; the
last phase uses another arithmetic (`ldpe_t`). -/
def slllPhases (w2 : SegArith G) (p1 p2 depth fuel dthreshold S n d : Nat) (A : Mat Int) (vd : Int) :
    WrapRes (Mat Int × Int × Bool) :=
  if d ≤ p1 then slllWrap w depth fuel dthreshold S 0 n d A vd
  else if d ≤ p2 then
    match slllWrap w depth fuel dthreshold S 0 n p1 (setMat n p1 A fun _ _ => 0) vd with
    | .done (C, vd, mx) =>
      match slllWrap w depth fuel p1 S 1 n d (copyCols n p1 d A (setMat n p1 C fun _ _ => 0)) vd with
      | .done (C, vd, mx2) => .done (C, vd, mx || mx2)
      | r => r
    | r => r
  else
    match slllWrap w depth fuel dthreshold S 0 n p1 (setMat n p1 A fun _ _ => 0) vd with
    | .done (C, vd, mx) =>
      match slllWrap w depth fuel p1 S 1 n p2 (copyCols n p1 p2 A (setMat n p1 C fun _ _ => 0)) vd with
      | .done (C, vd, mx2) =>
        match slllWrap w2 depth fuel p2 S 1 n d (copyCols n p2 d A (setMat n p2 C fun _ _ => 0)) vd with
        | .done (C, vd, mx3) => .done (C, vd, mx || mx2 || mx3)
        | r => r
      | r => r
    | r => r

/-- `slll<mpz_t>(C, A, dthreshold, S, delta, check, comput_cond)` (wrappers.h:622-785). -/
def slllMpz (w2 : SegArith G) (o3 : FPOps H) (junk3 delta3 : H) (p1 p2 depth fuel dthreshold S n d : Nat)
    (check : Bool) (A : Mat Int) (vd : Int) : WrapRes (Mat Int × Int × Bool) :=
  match slllPhases w w2 p1 p2 depth fuel dthreshold S n d A (vd - 1) with
  | .done (C, vd, mx) =>
    match wrapCheck o3 junk3 delta3 fuel n d C check vd with
    | none => .loops
    | some vd => .done (C, vd + 1, mx)
  | r => r

end HPLLL
