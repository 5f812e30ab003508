import Verif.Model.Trunc
/-!
# The operations of `Z_NR<__int128_t>` (nr_Z_l128.h:105-144, 271-382)

An object holds one `__int128_t`; the operations are the machine ones (two's complement, as gcc does; in
the C++ standard an overflow of a signed type is undefined).  `wrap128` is the reduction to 128 bits.
-/

namespace HPLLL

/-- A call on registers (objects) `d`, `x`, `y`; `d` may be equal to `x` or `y`. -/
inductive Ins128
  /-- `d = long` (nr_Z_l128.h:142-144) -/
  | setSi (d : Nat) (b : Int)
  /-- `d = mpz_t` (nr_Z_l128.h:136-138) -/
  | setMpz (d : Nat) (a : Int)
  /-- `d = x` (nr_Z_l128.h:131-133) -/
  | copy (d x : Nat)
  | add (d x y : Nat)
  | sub (d x y : Nat)
  | neg (d x : Nat)
  | mul (d x y : Nat)
  | mulSi (d x : Nat) (b : Int)
  | mul2si (d x : Nat) (b : Int)
  | addmul (d x y : Nat)
  | addmulSi (d x : Nat) (b : Int)
  | submul (d x y : Nat)
  | abs (d x : Nat)
  /-- `d.randb(bits)`, `u` the number drawn by `mpz_urandomb` (nr_Z_l128.h:382-388) -/
  | randb (d : Nat) (u : Int)

/-- Register written. -/
def Ins128.dest : Ins128 → Nat
  | setSi d _ | setMpz d _ | copy d _ | add d _ _ | sub d _ _ | neg d _ | mul d _ _ | mulSi d _ _
  | mul2si d _ _ | addmul d _ _ | addmulSi d _ _ | submul d _ _ | abs d _ | randb d _ => d

/-- `data = a.data << b` or `a.data >> -b` (nr_Z_l128.h:334-340), for `|b| < 128`. -/
def mul2si128 (a b : Int) : Int :=
  if b ≥ 0 then wrap128 (a * 2 ^ b.toNat) else a / 2 ^ (-b).toNat

/-- `abs` (nr_Z_l128.h:372-376). -/
def abs128 (a : Int) : Int := if a ≥ 0 then a else wrap128 (-a)

/-- `cmp` (nr_Z_l128.h:108-112). -/
def cmp128 (a m : Int) : Int := if a > m then 1 else if a = m then 0 else -1

/-- `operator==` (nr_Z_l128.h:272-280), with an object or a long. -/
def eq128 (a m : Int) : Bool := a == m

/-- Value written. -/
def Ins128.val (r : Nat → Int) : Ins128 → Int
  | setSi _ b => b
  | setMpz _ a => getSi a
  | copy _ x => r x
  | add _ x y => wrap128 (r x + r y)
  | sub _ x y => wrap128 (r x - r y)
  | neg _ x => wrap128 (-r x)
  | mul _ x y => wrap128 (r x * r y)
  | mulSi _ x b => wrap128 (r x * b)
  | mul2si _ x b => mul2si128 (r x) b
  | addmul d x y => wrap128 (r d + wrap128 (r x * r y))
  | addmulSi d x b => wrap128 (r d + wrap128 (r x * b))
  | submul d x y => wrap128 (r d - wrap128 (r x * r y))
  | abs _ x => abs128 (r x)
  | randb _ u => getSi u

/-- One call. -/
def Ins128.run (r : Nat → Int) (i : Ins128) : Nat → Int := setAt r i.dest (i.val r)

/-- A sequence of calls. -/
def run128 (p : List Ins128) (r : Nat → Int) : Nat → Int := p.foldl Ins128.run r

end HPLLL
