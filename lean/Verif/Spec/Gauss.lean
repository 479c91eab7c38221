import Verif.Model.Evo

/-!
# Vocabulary for the Gaussian models of `cmaes` and `vdcma`
-/

namespace Stochopy.Spec

section field

variable {K : Type} [Field K] [LinearOrder K] {n : Nat}

def Sym (C : Matrix (Fin n) (Fin n) K) : Prop := ∀ i j, C i j = C j i

/-- `xᵀ C x` -/
def quad (C : Matrix (Fin n) (Fin n) K) (x : Vec K n) : K := ∑ i, ∑ j, x i * C i j * x j

def PosSemi (C : Matrix (Fin n) (Fin n) K) : Prop := ∀ x : Vec K n, 0 ≤ quad C x

def PosDef (C : Matrix (Fin n) (Fin n) K) : Prop := ∀ x : Vec K n, (∃ i, x i ≠ 0) → 0 < quad C x

/-- The columns of `B` are orthonormal. -/
def Orthonormal (B : Matrix (Fin n) (Fin n) K) : Prop := ∀ i j, ∑ k, B k i * B k j = if i = j then 1 else 0

/-- `C = B diag(d) Bᵀ` -/
def Decomposes (B : Matrix (Fin n) (Fin n) K) (d : Vec K n) (C : Matrix (Fin n) (Fin n) K) : Prop :=
  ∀ i j, C i j = ∑ k, B i k * d k * B j k

/-- What `np.linalg.eigh` promises. -/
def IsEigh (eigh : (n : Nat) → Matrix (Fin n) (Fin n) K → Vec K n × Matrix (Fin n) (Fin n) K) : Prop :=
  ∀ (n : Nat) (C : Matrix (Fin n) (Fin n) K), Sym C → Orthonormal (eigh n C).2 ∧ Decomposes (eigh n C).2 (eigh n C).1 C

end field

variable {K S : Type} [AddZeroClass K] [One K] [Sub K] [Mul K] [Div K] [Neg K] [NatCast K] [IntCast K] [Pow K ℕ] [ArrayOps K] [LinearOrder K] {p n : Nat}

/-- The states of the loop after 0, 1, 2, … iterations. -/
inductive Reach [NumFns K] [IntParts K] (P : Evo.Par K n) (G : Evo.Gauss S K p n) (c : Cfg) (s0 : S) : Evo.St S K p n → Prop
  | start : Reach P G c s0
      { s := s0, it := 0, nfev := 0, pen := Evo.Pen.start n, arbest := List.replicate c.maxiter.toNat (.fin 0),
        rowsX := [], rowsF := [], cbs := [], evals := [] }
  | step {L r} : Reach P G c s0 L → Evo.body P G c L = .ok r → Reach P G c s0 r.1

end Stochopy.Spec
