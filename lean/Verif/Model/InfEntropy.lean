import Verif.Model.DepTree
import Verif.Model.CKYCRF
import Verif.Model.ChainBackward

/-! Model of `entropy`, `cross_entropy` and `kl` on potentials that may be `-inf`.  The log-values stay extended reals, as in `Dist.partitionE`; the running
expectation is computed in floating point without rounding, with NaN. -/

noncomputable section

namespace Semirings

/-- `torch.logsumexp` of numbers that may be `-inf`. (semirings.py:279-280, 339-340, 392) -/
def lseE (xs : List EReal) : EReal := ENNReal.log (xs.map EReal.exp).sum

/-- The entries of `log_sm`. (semirings.py:281-282, 341-342, 393) -/
def logSmE (x part : EReal) : IEEE := IEEE.sub (some x) (some part)

/-- `EntropySemiring` (semirings.py:357-403). -/
def entropyE : SR (EReal × IEEE) where
  zero := ((negInf : ℝ), .ofReal 0)
  one := (0, .ofReal 0)
  mul a b := (a.1 + b.1, IEEE.add a.2 b.2)
  sum xs :=
    let part := lseE (xs.map Prod.fst)
    (part, ChainBackward.addAll (xs.map fun x =>
      let logSm := logSmE x.1 part
      let sm := IEEE.exp logSm
      IEEE.sub (IEEE.mul x.2 sm) (IEEE.mul logSm sm)))
  raw0 := (0, .ofReal 0)
  detach x := x
  setData _ v := v

/-- `CrossEntropySemiring` (semirings.py:303-354). -/
def crossEntropyE : SR (EReal × EReal × IEEE) where
  zero := ((negInf : ℝ), (negInf : ℝ), .ofReal 0)
  one := (0, 0, .ofReal 0)
  mul a b := (a.1 + b.1, a.2.1 + b.2.1, IEEE.add a.2.2 b.2.2)
  sum xs :=
    let partP := lseE (xs.map fun x => x.1)
    let partQ := lseE (xs.map fun x => x.2.1)
    (partP, partQ, ChainBackward.addAll (xs.map fun x =>
      let logSmP := logSmE x.1 partP
      let logSmQ := logSmE x.2.1 partQ
      let smP := IEEE.exp logSmP
      IEEE.sub (IEEE.mul x.2.2 smP) (IEEE.mul logSmQ smP)))
  raw0 := (0, 0, .ofReal 0)
  detach x := x
  setData _ v := v

/-- `KLDivergenceSemiring` (semirings.py:240-300). -/
def klE : SR (EReal × EReal × IEEE) where
  zero := ((negInf : ℝ), (negInf : ℝ), .ofReal 0)
  one := (0, 0, .ofReal 0)
  mul a b := (a.1 + b.1, a.2.1 + b.2.1, IEEE.add a.2.2 b.2.2)
  sum xs :=
    let partP := lseE (xs.map fun x => x.1)
    let partQ := lseE (xs.map fun x => x.2.1)
    (partP, partQ, ChainBackward.addAll (xs.map fun x =>
      let logSmP := logSmE x.1 partP
      let logSmQ := logSmE x.2.1 partQ
      let smP := IEEE.exp logSmP
      IEEE.add (IEEE.sub (IEEE.mul x.2.2 smP) (IEEE.mul logSmQ smP)) (IEEE.mul logSmP smP)))
  raw0 := (0, 0, .ofReal 0)
  detach x := x
  setData _ v := v

end Semirings

/-- `StructDistribution.entropy` (distributions.py:77-86; `convert`: semirings.py:377-382), on potentials that may be `-inf`. -/
def Dist.entropyE (A : Algo) (p : A.T EReal) (lengths : Option (List ℕ)) : Except PyErr (List IEEE) :=
  (A.run Semirings.entropyE (A.map (fun x => (x, IEEE.ofReal 0)) p) lengths).map (List.map Prod.snd)

/-- `DependencyCRF.entropy` (deptree.py:50-56, distributions.py:77-86), on potentials that may be `-inf`. -/
def DepTree.entropyE (multiroot : Bool) (q : DepTree.Arcs EReal) (lengths : Option (List ℕ)) : Except PyErr (List IEEE) := do
  let p ← DepTree.convert ((DepTree.negBig : ℝ) : EReal) q
  Dist.entropyE (DepTree.algo multiroot) p lengths

/-- The pair of potentials that `cross_entropy` and `kl` stack (distributions.py:99-101, 113-115; `convert`: semirings.py:263-269, 323-329), for two tables of the same
shape. -/
def pairE (p q : T4 EReal) : T4 (EReal × EReal × IEEE) := ⟨p.d0, p.d1, p.d2, p.d3, fun b n i j => (p.get b n i j, q.get b n i j, .ofReal 0)⟩

/-- `cross_entropy` (distributions.py:88-101) of the distributions with tables of rank 4, for two tables of the same shape that may hold `-inf`. -/
def Dist.crossEntropyE (run : {α : Type} → SR α → T4 α → Option (List ℕ) → Except PyErr (List α)) (p q : T4 EReal) (lengths : Option (List ℕ)) :
    Except PyErr (List IEEE) := (run Semirings.crossEntropyE (pairE p q) lengths).map (List.map fun a => a.2.2)

/-- `kl` (distributions.py:103-115) of the distributions with tables of rank 4, for two tables of the same shape that may hold `-inf`. -/
def Dist.klE (run : {α : Type} → SR α → T4 α → Option (List ℕ) → Except PyErr (List α)) (p q : T4 EReal) (lengths : Option (List ℕ)) :
    Except PyErr (List IEEE) := (run Semirings.klE (pairE p q) lengths).map (List.map fun a => a.2.2)
