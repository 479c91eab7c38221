import Verif.Lemmas.Affine
import Verif.Spec.Mirror

/-! `de` and `cpso` in a mirror, with the same random numbers. -/

set_option linter.unusedSectionVars false

namespace Stochopy
variable {K σ : Type} [Field K] [LinearOrder K] [IsStrictOrderedRing K] {p n : Nat}

theorem mirror_affine (t : Nat → K) : (mirror t : Vec K n → Vec K n) = affine (fun _ => -1) t := by
  funext x j
  unfold mirror affine
  ring

theorem mirror_mirror (t : Nat → K) (x : Vec K n) : mirror t (mirror t x) = x := by
  funext j
  unfold mirror
  ring

theorem distLe_mirror (t : Nat → K) (a b : Vec K n) (tol : K) : distLe (mirror t a) (mirror t b) tol = distLe a b tol := by
  unfold distLe mirror
  have h : ∀ j : Fin n, (t j - a j - (t j - b j)) ^ 2 = (a j - b j) ^ 2 := fun j => by ring
  show (decide (0 ≤ tol) && decide (∑ j : Fin n, (t j - a j - (t j - b j)) ^ 2 ≤ tol ^ 2)) =
    (decide (0 ≤ tol) && decide (∑ j, (a j - b j) ^ 2 ≤ tol ^ 2))
  simp only [h]

section DE
open DE

theorem candSync_none {s t : Nat → K} {P P' : DE.Par σ K p n} (hR : P'.R = P.R) (hF : P'.F = P.F)
    (hCR : P'.CR = P.CR) (hst : P'.strat = P.strat) (hc : P.cons = .none) (hc' : P'.cons = .none)
    (ha : AffineStrategy s t P.strat) (X : Pop K p n) (gb : Vec K n) (g : σ) :
    candSync P' (fun i => affine s t (X i)) (affine s t gb) g =
      (candSync P X gb g).map fun r => (fun i => affine s t (r.1 i), r.2) := by
  unfold candSync
  simp only [map_bind_ex]
  rw [hR, hF, hCR, hst, hc, hc']
  have e := seqFin_map (affine s t)
    (fun i => P.strat (donors i ((drawVec (P.R.perm (p - 1)) p (drawMat P.R.rand p n g).2).1 i)) P.F X gb)
  simp only [← ha _ _ _ _] at e
  rw [e, bind_map_ex]
  congr 1; funext V; congr 1; funext _
  show Except.ok _ = Except.ok _
  congr 1
  refine Prod.ext ?_ rfl
  funext i
  exact crossover_affine ..

theorem candAsync_none {s t : Nat → K} {P P' : DE.Par σ K p n} (hR : P'.R = P.R) (hF : P'.F = P.F)
    (hCR : P'.CR = P.CR) (hst : P'.strat = P.strat) (hc : P.cons = .none) (hc' : P'.cons = .none)
    (ha : AffineStrategy s t P.strat) (r1 : Vec K n) (i : Fin p) (X : Pop K p n) (gb : Vec K n) (g : σ) :
    candAsync P' r1 i (fun i => affine s t (X i)) (affine s t gb) g =
      (candAsync P r1 i X gb g).map fun r => (affine s t r.1, r.2) := by
  unfold candAsync
  simp only [map_bind_ex]
  rw [hR, hF, hCR, hst, hc, hc', ha, bind_map_ex]
  congr 1; funext V; congr 1; funext _
  show Except.ok _ = Except.ok _
  congr 1
  refine Prod.ext ?_ rfl
  exact crossover_affine ..

end DE

section CPSO
open CPSO

theorem shrinkBeta_mirror (t : Nat → K) (lower upper X V : Vec K n) :
    shrinkBeta (mirror t upper) (mirror t lower) (mirror t X) (fun j => -V j) = shrinkBeta lower upper X V := by
  have e1 : ∀ j : Fin n, (if mirror t X j + -V j < mirror t upper j then some ((mirror t upper j - mirror t X j) / -V j) else none) =
      if upper j < X j + V j then some ((upper j - X j) / V j) else none := by
    intro j
    have h1 : (mirror t X j + -V j < mirror t upper j) ↔ upper j < X j + V j := by
      unfold mirror; constructor <;> intro h <;> linarith
    have h2 : (mirror t upper j - mirror t X j) / -V j = (upper j - X j) / V j := by
      unfold mirror
      rw [show t j - upper j - (t j - X j) = -(upper j - X j) by ring, neg_div_neg_eq]
    simp only [h1, h2]
  have e2 : ∀ j : Fin n, (if mirror t lower j < mirror t X j + -V j then some ((mirror t lower j - mirror t X j) / -V j) else none) =
      if X j + V j < lower j then some ((lower j - X j) / V j) else none := by
    intro j
    have h1 : (mirror t lower j < mirror t X j + -V j) ↔ X j + V j < lower j := by
      unfold mirror; constructor <;> intro h <;> linarith
    have h2 : (mirror t lower j - mirror t X j) / -V j = (lower j - X j) / V j := by
      unfold mirror
      rw [show t j - lower j - (t j - X j) = -(lower j - X j) by ring, neg_div_neg_eq]
    simp only [h1, h2]
  unfold shrinkBeta
  simp only [e1, e2]
  generalize (List.filterMap (fun j => if upper j < X j + V j then some ((upper j - X j) / V j) else none) (List.finRange n)).min? = a
  generalize (List.filterMap (fun j => if X j + V j < lower j then some ((lower j - X j) / V j) else none) (List.finRange n)).min? = b
  cases a <;> cases b <;> first | rfl | exact min_comm ..

theorem mutation_mirror {t : Nat → K} {P P' : CPSO.Par σ K n} (hw : P'.w = P.w) (h1 : P'.c1 = P.c1)
    (h2 : P'.c2 = P.c2) (hc : P'.cons = P.cons) (hl : P'.lower = mirror t P.upper)
    (hu : P'.upper = mirror t P.lower) (X V pb gb r1 r2 : Vec K n) :
    CPSO.mutation P' (mirror t X) (fun j => -V j) (mirror t pb) (mirror t gb) r1 r2 =
      (mirror t (CPSO.mutation P X V pb gb r1 r2).1, fun j => -(CPSO.mutation P X V pb gb r1 r2).2 j) := by
  have key : ∀ W : Vec K n, consRow P.cons (mirror t P.upper) (mirror t P.lower) (mirror t X) (fun j => -W j) =
      (mirror t (consRow P.cons P.lower P.upper X W).1, fun j => -(consRow P.cons P.lower P.upper X W).2 j) := by
    intro W
    unfold consRow
    cases P.cons with
    | none => refine Prod.ext ?_ rfl; funext j; dsimp only [mirror]; ring
    | shrink =>
      dsimp only
      rw [shrinkBeta_mirror]
      refine Prod.ext ?_ ?_ <;> · funext j; dsimp only [mirror]; ring
  have e : (fun j => P.w * -V j + P.c1 * r1 j * (mirror t pb j - mirror t X j) + P.c2 * r2 j * (mirror t gb j - mirror t X j)) =
      fun j => -(P.w * V j + P.c1 * r1 j * (pb j - X j) + P.c2 * r2 j * (gb j - X j)) := by
    funext j
    unfold mirror
    ring
  unfold CPSO.mutation
  rw [hw, h1, h2, hc, hl, hu]
  dsimp only
  rw [e]
  exact key _

end CPSO

end Stochopy
