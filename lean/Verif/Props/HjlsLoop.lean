import Verif.Props.NullExact
import Verif.Proof.DecAgree
/-!
# C74: `nullspace_hjls` may run for ever

`nullspace_hjls` calls the decomposition with `gamma = 1.1414` (nullspace.cc:278), which is smaller
than `2/sqrt 3 = 1.1547...`: an exchange need not decrease anything.
-/

namespace HPLLL.Props
open HPLLL Spec Agr

/-- The double `1.1414`. -/
def gamma114 : Rat := rnQ 53 (mkRat 11414 10000)

/-- `A = (2 1 1 1)`. -/
def loopA : Mat Int := ofCols [[2], [1], [1], [1]]

namespace HjLoop

abbrev o53 := nearOps 53

def S : Fg Int Rat := newZFgas fpZero 4 5 (hjlsInput 1 loopA) false 1

def nx (x : Option (DStep Int Rat)) (t : DSt Int Rat) : DSt Int Rat :=
  match x with
  | some (.next t) => t
  | _ => t

/-- The object after the first reductions. -/
def S1 : Fg Int Rat := (S.hsizeRange o53 (zX o53) 2 0 5).getD S

def start (s : Fg Int Rat) : DSt Int Rat :=
  ⟨s, s.dec, diagMin o53 s.fp.R s.dec s.d, 0, -1, fun _ => 0⟩

/-- States at the beginning of the iterations. -/
def T : ℕ → DSt Int Rat
  | 0 => start S1
  | k + 1 => nx (zStep o53 2 gamma114 gapDef 3 (T k)) (T k)

def isNext (x : Option (DStep Int Rat)) : Bool :=
  match x with
  | some (.next _) => true
  | _ => false

theorem nx_eq {x : Option (DStep Int Rat)} (h : isNext x = true) (t : DSt Int Rat) :
    x = some (.next (nx x t)) := by
  match x, h with
  | some (.next _), _ => rfl

theorem T_succ (k : ℕ) : T (k + 1) = nx (zStep o53 2 gamma114 gapDef 3 (T k)) (T k) := rfl

theorem next_eq {k : ℕ} (h : isNext (zStep o53 2 gamma114 gapDef 3 (T k)) = true) :
    zStep o53 2 gamma114 gapDef 3 (T k) = some (.next (T (k + 1))) := by
  rw [T_succ]; exact nx_eq h (T k)

theorem n0 : isNext (zStep o53 2 gamma114 gapDef 3 (T 0)) = true := by decide +kernel
theorem n1 : isNext (zStep o53 2 gamma114 gapDef 3 (T 1)) = true := by decide +kernel
theorem n2 : isNext (zStep o53 2 gamma114 gapDef 3 (T 2)) = true := by decide +kernel

theorem pk : (T 1).prevkappa = 2 := by decide +kernel
theorem pr : (T 3).prevR 2 = (T 1).prevR 2 := by decide +kernel

theorem cyc : DAg 5 4 1 (T 1) (T 3) where
  s := ⟨by decide +kernel, by decide +kernel, by decide +kernel, by decide +kernel, by decide +kernel,
    by decide +kernel, ⟨by decide +kernel, by decide +kernel, by decide +kernel⟩⟩
  n := by decide +kernel
  d := by decide +kernel
  dec := by decide +kernel
  dn := by decide +kernel
  lt := by decide +kernel
  mh := by decide +kernel
  maxh := by decide +kernel
  diagold := by decide +kernel
  prevkappa := by decide +kernel
  prevR := fun h hh => by
    rw [pk] at hh
    have : h = 2 := by omega
    rw [this]; exact pr

theorem init : S.hsizeRange o53 (zX o53) 2 0 5 = some S1 := by
  have h : (S.hsizeRange o53 (zX o53) 2 0 5).isSome = true := by decide +kernel
  unfold S1
  revert h
  generalize S.hsizeRange o53 (zX o53) 2 0 5 = x
  intro h
  cases x with
  | none => cases h
  | some x => rfl

theorem loop (fuel : ℕ) (hf : 2 ≤ fuel) (k : ℕ) : zLoop o53 fuel gamma114 gapDef 3 k (T 0) = none := by
  have h := zLoop_cycle (by norm_num) (next_eq n1) (next_eq n2) cyc fuel hf
  cases k with
  | zero => rfl
  | succ k =>
    unfold zLoop
    rw [zStep_mono hf (next_eq n0)]
    exact h k

theorem decomp (fuel : ℕ) : zDecomp o53 0 fuel gamma114 gapDef 3 S = none := by
  have hS : ({ S with ub := S.ub || !decide (0 < S.d ∧ S.dec < S.d ∧ S.d ≤ S.n) } : Fg Int Rat) = S := rfl
  have hn : S.n = 5 := rfl
  unfold zDecomp
  simp only [hS]
  rw [hn]
  cases h : S.hsizeRange o53 (zX o53) fuel 0 5 with
  | none => rfl
  | some s =>
    have h1 := hsizeRange_mono (zX o53) (le_max_left fuel 2) _ _ _ _ h
    rw [hsizeRange_mono (zX o53) (le_max_right fuel 2) _ _ _ _ init] at h1
    cases h1
    show zLoop o53 fuel gamma114 gapDef 3 fuel (T 0) = none
    by_cases hf : 2 ≤ fuel
    · exact loop fuel hf fuel
    · obtain rfl | rfl : fuel = 0 ∨ fuel = 1 := by omega
      · rfl
      · cases hz : zStep o53 1 gamma114 gapDef 3 (T 0) with
        | none => unfold zLoop; rw [hz]
        | some r =>
          have h2 := zStep_mono (show 1 ≤ 2 by norm_num) hz
          rw [next_eq n0] at h2
          cases h2
          unfold zLoop; rw [hz]; rfl

end HjLoop

/-- **C74, defect.** On `A = (2 1 1 1)` (and 53 bits, round to nearest, the default of `setprec`)
`nullspace_hjls` does not return: whatever the number of iterations allowed, and whatever the
uninitialised memory contains, the loop of the decomposition is still running. -/
theorem C74_hjls_does_not_return (fp : FPart Rat) (junk : Rat) (fuel : ℕ) (C : ZMat) :
    nullspaceHjls (nearOps 53) fp junk fuel gamma114 gapDef 1 4 loopA C = none := by
  have h : zDecomp HjLoop.o53 junk fuel gamma114 gapDef 3 (newZFgas fp 4 5 (hjlsInput 1 loopA) false 1) = none := by
    refine (zDecomp_none_congr (s := HjLoop.S) (t := newZFgas fp 4 5 (hjlsInput 1 loopA) false 1) (junk := 0)
      ⟨rfl, rfl, rfl, rfl, by decide, fun _ _ _ _ => rfl, ⟨fun _ h => h.elim, fun _ h => h.elim,
        fun _ h => h.elim⟩⟩ (by decide) (by decide) (by decide)).mp (HjLoop.decomp fuel)
  unfold nullspaceHjls
  have e : ((4 : ℕ) : ℤ) - ((1 : ℕ) : ℤ) = 3 := rfl
  rw [e]
  have h' : zDecomp (nearOps 53) junk fuel gamma114 gapDef 3
    (newZFgas fp 4 (4 + 1) (hjlsInput 1 loopA) false 1) = none := h
  rw [h']

/-- With the constant of the other calls, `1.1547005384`, the same call returns a basis of the kernel:
-/
theorem C74_hjls_other_gamma :
    (nullspaceHjls (nearOps 53) fpZero 0 20 gamma115 gapDef 1 4 loopA ⟨0, 0, fun _ _ => 0⟩).map
      (fun r => (r.ret, toCols 4 3 r.C.M)) = some (3, [[1, -1, -1, 0], [0, 1, 0, -1], [0, 0, 1, -1]]) := by decide +kernel

end HPLLL.Props
