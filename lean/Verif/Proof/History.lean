import Verif.Proof.Safe
import Verif.Proof.HlllExit
import Verif.Proof.UInv
import Verif.Model.History
/-! Invariant of an object over a history of calls. -/

namespace HPLLL
open Spec Matrix

variable {F : Type}

/-- The basis given by the last assignment of a history (`A` the one of the constructor). -/
def lastBasis (A : Mat Int) : List (Call F) → Mat Int
  | [] => A
  | c :: cs =>
    lastBasis (match c with
      | .assign A' => A'
      | .shiftAssign A' sh => fun j i => mul2si (A' j i) (sh i)
      | _ => A) cs

theorem lastBasis_snoc (A : Mat Int) (cs : List (Call F)) (c : Call F) :
    lastBasis A (cs ++ [c]) = (match c with
      | .assign A' => A'
      | .shiftAssign A' sh => fun j i => mul2si (A' j i) (sh i)
      | _ => lastBasis A cs) := by
  induction cs generalizing A with
  | nil => rfl
  | cons a cs ih => exact ih _

/-- All `set_num_S` calls of the history are sequential for dimension `d`. -/
def SeqHist (d : Nat) (cs : List (Call F)) : Prop :=
  ∀ S thr, Call.setNumS S thr ∈ cs → S = 1 ∨ (d : Int) ≤ thr + 1

structure HistInv (n d : Nat) (A : Mat Int) (forU : Bool) (vd : Int) (seq : Prop) (s : Lat F) :
    Prop where
  inv : LInv n d A (forU = true ∧ FullColumnRank (toMatrix n d A) ∧ seq) s
  seqS : seq → (s.numS = 1 ∨ (d : Int) ≤ s.parThr + 1)
  km : s.kappaMax = d
  vd : s.verboseDepth = vd
  tr : s.transf = forU
  ub : d ≤ n → s.ub = false
  uinv : forU = true → FullColumnRank (toMatrix n d A) → UInv d s

theorem HistInv.assign {n d : Nat} {A : Mat Int} {forU : Bool} {vd : Int} {seq : Prop} {s : Lat F}
    (h : HistInv n d A forU vd seq s) (A' : Mat Int) :
    HistInv n d A' forU vd seq (s.assign A') := by
  refine ⟨?_, h.seqS, h.km, h.vd, h.tr, h.ub, ?_⟩
  · refine LInv.of_basis A' _ _ h.inv.hn h.inv.hd rfl ?_ ?_
    · show matrixStructure s.n A' = _; rw [h.inv.hn]
    · rintro ⟨h1, h2, h3⟩
      refine ⟨h.tr.trans h1, ?_, h2, h.seqS h3⟩
      show (if s.transf then idMat else s.U) = idMat
      rw [h.tr, h1]; rfl
  · intro h1 h2
    refine UInv.of_basis (n := n) A' _ h.inv.hd ?_ (h.tr.trans h1) ?_ h2
    · show matrixStructure s.n A' = _; rw [h.inv.hn]
    · show (if s.transf then idMat else s.U) = idMat
      rw [h.tr, h1]; rfl

theorem UInv.congr {d : Nat} {s s' : Lat F} (hI : UInv d s) (h2 : s'.d = s.d) (h3 : s'.str = s.str)
    (h5 : s'.U = s.U) (h6 : s'.transf = s.transf) : UInv d s' := by
  obtain ⟨hd, htr, hmono, husupp, hU⟩ := hI
  constructor <;> simp only [h2, h3, h5, h6] <;> assumption

theorem HistInv.does {n d : Nat} {A : Mat Int} {forU : Bool} {vd : Int} {seq : Prop}
    {s s' : Lat F} {c : Call F} (h : HistInv n d A forU vd seq s) (hc : Does s c s')
    (hs : seq → ∀ S thr, c = .setNumS S thr → S = 1 ∨ (d : Int) ≤ thr + 1) :
    HistInv n d (lastBasis A [c]) forU vd seq s' := by
  cases hc with
  | hlll o δ v _ _ fuel st hl =>
    have hE := hlll_exit o fuel δ v s s' st h.inv (le_of_eq h.km) hl
    refine ⟨hE.inv, ?_, ?_, ?_, ?_, ?_, ?_⟩
    · rw [hE.cfg.numS, hE.cfg.parThr]; exact h.seqS
    · rw [hE.cfg.kappaMax]; exact h.km
    · rw [hE.cfg.verboseDepth]; exact h.vd
    · rw [hE.cfg.transf]; exact h.tr
    · intro hdn; exact hlll_safe o hdn fuel δ v s s' st h.inv (le_of_eq h.km) (h.ub hdn) hl
    · intro h1 h2; exact UInv.hlll o δ fuel v s s' st (le_of_eq h.km) (h.uinv h1 h2) hl
  | assign A' => exact h.assign A'
  | shiftAssign A' sh => exact h.assign _
  | setNblovMax nb =>
    exact ⟨h.inv.congr rfl rfl rfl rfl rfl rfl rfl rfl, h.seqS, h.km, h.vd, h.tr, h.ub,
      fun a b => (h.uinv a b).congr rfl rfl rfl rfl⟩
  | setNumS S thr =>
    have hS : seq → S = 1 ∨ (d : Int) ≤ thr + 1 := fun hq => hs hq S thr rfl
    obtain ⟨hn, hd, hlt, hmono, hsupp, hseq, husupp, htr, hW⟩ := h.inv
    exact ⟨⟨hn, hd, hlt, hmono, hsupp, fun ht => hS ht.2.2, husupp, htr, hW⟩, hS, h.km, h.vd,
      h.tr, h.ub, fun a b => (h.uinv a b).congr rfl rfl rfl rfl⟩
  | setprec o junk =>
    exact ⟨h.inv.congr rfl rfl rfl rfl rfl rfl rfl rfl, h.seqS, h.km, h.vd, h.tr, h.ub,
      fun a b => (h.uinv a b).congr rfl rfl rfl rfl⟩
  | householder o =>
    refine ⟨h.inv.congr rfl rfl rfl rfl rfl rfl rfl rfl, h.seqS, h.km, h.vd, h.tr, ?_,
      fun a b => (h.uinv a b).congr rfl rfl rfl rfl⟩
    intro hdn
    simp [Lat.householder, h.ub hdn, h.inv.hn, h.inv.hd, hdn]

theorem HistInv.runs {n d : Nat} {A : Mat Int} {forU : Bool} {vd : Int} {s s' : Lat F}
    {cs : List (Call F)} (h : HistInv n d A forU vd True s) (hr : Runs s cs s') :
    HistInv n d (lastBasis A cs) forU vd (SeqHist d cs) s' := by
  have key : ∀ seq : Prop, (seq → SeqHist d cs) → HistInv n d (lastBasis A cs) forU vd seq s' := by
    intro seq hq
    induction hr with
    | nil =>
      obtain ⟨h1, h2, h3⟩ := h
      obtain ⟨hn, hd, hlt, hmono, hsupp, hseq, husupp, htr, W, hW, hB, hU⟩ := h1
      have k : ∀ {A : Mat Int}, (forU = true ∧ FullColumnRank (toMatrix n d A) ∧ seq) →
        (forU = true ∧ FullColumnRank (toMatrix n d A) ∧ True) := fun h => ⟨h.1, h.2.1, trivial⟩
      refine ⟨⟨hn, hd, hlt, hmono, hsupp, fun a => hseq (k a), fun a => husupp (k a),
        fun a => htr (k a), W, hW, hB, fun a => hU (k a)⟩, fun _ => h2 trivial, h3, by assumption,
        by assumption, by assumption, by assumption⟩
    | snoc t u cs c hr hd ih =>
      have h1 := ih (fun q S thr hm => hq q S thr (List.mem_append_left _ hm))
      have h2 := h1.does hd (fun q S thr hc => hq q S thr (by simp [hc]))
      rw [lastBasis_snoc]
      cases c <;> exact h2
  exact key _ id

end HPLLL
