import Verif.Props.Double
import Verif.Props.EvoRuns
import Verif.Lemmas.EvoBox
import Verif.Lemmas.EvoValid

/-!
# C89: `Penalize` in floating point arithmetic

Full claim: with `Penalize`, all points evaluated, shown, recorded or reported by `cmaes` and `vdcma` satisfy the bounds, and a
reported point strictly inside them has the value of the objective (`C37_*_box` and `C37_*_inside_partial` for exact
arithmetic).  Both parts are false in floating point arithmetic: candidates are clipped to `[-1, 1]` and then mapped to the bounds,
and the images of `-1` and `1` are not the bounds.
-/

set_option linter.unusedSectionVars false

namespace Stochopy
open Spec Concrete Evo

namespace Double

/-- `exp 0 = 1`, `log 1 = 0` and `log 1.5`: before the first candidates are evaluated no other value is used. -/
@[instance_reducible] def early : NumFns F64 where
  sqrt := F64.sqrt
  exp _ := 1
  log x := if x = 1 then 0 else F64.of (4054651081081644 / 10 ^ 16)
  pow _ _ := 1

/-- A generator that delivers the given normal numbers, then zeros; the uniform ones are `1/2`. -/
def normals (l : List ℚ) : Rng Nat F64 where
  seed s := s.toNat
  rand g := (unit (1 / 2), g + 1)
  randn g := (F64.of (l.getD g 0), g + 1)
  randint n g := (g % n, g)
  perm _ g := (Equiv.refl _, g)

theorem normals_ok (l : List ℚ) : (normals l).Ok where
  rand_nonneg _ := by show 0 ≤ unit (1 / 2); decide +kernel
  rand_lt_one _ := by show unit (1 / 2) < 1; decide +kernel
  randint_lt n g h := Nat.mod_lt _ h

/-- Eigenvalues and eigenvectors of diagonal matrices. -/
def eighDiag64 : CMAES.Eigh F64 := fun _ C => (fun i => C i i, fun i j => if i = j then 1 else 0)

/-- The interval `[-3.7, 3.6]`, two candidates, no `x0`. -/
def clipArgs : Evo.Args F64 :=
  { bounds := { shape := [1, 2], get := fun l => if l.getD 1 0 = 0 then F64.of (-37 / 10) else F64.of (36 / 10) },
    fn := some fun x => .fin (-(x ⟨0, by decide⟩)), x0 := none,
    maxiter := 1, popsize := 2, seed := none, xtol := F64.of (1 / 10 ^ 8), ftol := .fin (F64.of (-10)), workers := 1,
    backend := none, returnAll := true, verbosity := 1, callback := some true,
    sigma := F64.of (1 / 2), muperc := F64.of (1 / 2), constraints := some "Penalize" }

/-- The interval `[-6, -5.8]`, two candidates; the mean starts at `-5.75`, outside the bounds, so that candidates outside are penalised. -/
def edgeClipArgs : Evo.Args F64 :=
  { clipArgs with
    bounds := { shape := [1, 2], get := fun l => if l.getD 1 0 = 0 then F64.of (-6) else F64.of (-58 / 10) }
    x0 := some { shape := [1], get := fun _ => F64.of (-575 / 100) }
    sigma := 1 }

end Double

open Double

section
attribute [local instance 2000] early

/-- With `Penalize` and ordered bounds, an evaluated point and the returned point are above the upper bound. -/
def ReturnsAbove {p n : Nat} (a : Evo.Args F64) (u : Vec F64 n) (o : Output Nat F64 p n) : Prop :=
  a.constraints = some "Penalize" ∧ (∀ j, a.lower j ≤ a.upper j) ∧ (∃ x ∈ o.evals, ∃ j, u j < x j) ∧ ∃ j, u j < o.res.x j

/-- The largest candidate is evaluated at, and returned as, `3.6000000000000005`. -/
theorem C89_cmaes_violated : ∃ o,
    CMAES.minimize Concrete.env (normals [0, 3, -1]) stableArgsort eighDiag64 10 clipArgs (fun _ => 0) 0 = .ok o ∧
    (normals [0, 3, -1]).Ok ∧ ReturnsAbove clipArgs clipArgs.upper o := by
  obtain ⟨o, h, ht⟩ := returns_iff
    (r := CMAES.minimize Concrete.env (normals [0, 3, -1]) stableArgsort eighDiag64 10 clipArgs (fun _ => 0) 0)
    (t := fun o => above clipArgs.upper o && decide (clipArgs.upper ⟨0, Nat.one_pos⟩ < o.res.x ⟨0, Nat.one_pos⟩)) (by decide +kernel)
  rw [Bool.and_eq_true] at ht
  exact ⟨o, h, normals_ok _, rfl, by decide +kernel, above_iff ht.1, _, of_decide_eq_true ht.2⟩

theorem C89_vdcma_violated : ∃ o,
    VDCMA.minimize Concrete.env (normals [0, 1, 3, -1]) stableArgsort 10 clipArgs (fun _ => 0) 0 = .ok o ∧
    (normals [0, 1, 3, -1]).Ok ∧ ReturnsAbove clipArgs clipArgs.upper o := by
  obtain ⟨o, h, ht⟩ := returns_iff
    (r := VDCMA.minimize Concrete.env (normals [0, 1, 3, -1]) stableArgsort 10 clipArgs (fun _ => 0) 0)
    (t := fun o => above clipArgs.upper o && decide (clipArgs.upper ⟨0, Nat.one_pos⟩ < o.res.x ⟨0, Nat.one_pos⟩)) (by decide +kernel)
  rw [Bool.and_eq_true] at ht
  exact ⟨o, h, normals_ok _, rfl, by decide +kernel, above_iff ht.1, _, of_decide_eq_true ht.2⟩

/-- The returned point is strictly inside the bounds; the returned value is greater than the value of the objective there. -/
def ReturnsPenalised {p : Nat} (a : Evo.Args F64) (o : Output Nat F64 p a.ndim) : Prop :=
  a.constraints = some "Penalize" ∧ (∀ j, a.lower j < o.res.x j ∧ o.res.x j < a.upper j) ∧
    ∃ fn, a.fn = some fn ∧ fn o.res.x < o.res.fval

/-- A candidate outside is clipped to `1`, which stands for the point `-5.800000000000001`. -/
theorem C89_cmaes_inside_violated : ∃ o,
    CMAES.minimize Concrete.env (normals [0, -1]) stableArgsort eighDiag64 10 edgeClipArgs (fun _ => 0) 0 = .ok o ∧
    (normals [0, -1]).Ok ∧ ReturnsPenalised edgeClipArgs o := by
  obtain ⟨o, h, ht⟩ := returns_iff
    (r := CMAES.minimize Concrete.env (normals [0, -1]) stableArgsort eighDiag64 10 edgeClipArgs (fun _ => 0) 0)
    (t := fun o => decide ((∀ j : Fin edgeClipArgs.ndim, edgeClipArgs.lower j < o.res.x j ∧ o.res.x j < edgeClipArgs.upper j) ∧
      Val.fin (-(o.res.x ⟨0, Nat.one_pos⟩)) < o.res.fval)) (by decide +kernel)
  have ht := of_decide_eq_true ht
  exact ⟨o, h, normals_ok _, rfl, ht.1, _, rfl, ht.2⟩

theorem C89_vdcma_inside_violated : ∃ o,
    VDCMA.minimize Concrete.env (normals [1, 0, -1]) stableArgsort 10 edgeClipArgs (fun _ => 0) 0 = .ok o ∧
    (normals [1, 0, -1]).Ok ∧ ReturnsPenalised edgeClipArgs o := by
  obtain ⟨o, h, ht⟩ := returns_iff
    (r := VDCMA.minimize Concrete.env (normals [1, 0, -1]) stableArgsort 10 edgeClipArgs (fun _ => 0) 0)
    (t := fun o => decide ((∀ j : Fin edgeClipArgs.ndim, edgeClipArgs.lower j < o.res.x j ∧ o.res.x j < edgeClipArgs.upper j) ∧
      Val.fin (-(o.res.x ⟨0, Nat.one_pos⟩)) < o.res.fval)) (by decide +kernel)
  have ht := of_decide_eq_true ht
  exact ⟨o, h, normals_ok _, rfl, ht.1, _, rfl, ht.2⟩

end

/-! ## What remains -/

theorem unstandardize_widened {n : Nat} {lower upper x : Vec F64 n} (hle : ∀ j, lower j ≤ upper j) (hx : ∀ j, -1 ≤ x j ∧ x j ≤ 1) :
    InBox (widened lower upper).1 (widened lower upper).2 (unstandardize lower upper x) := fun j =>
  ⟨lhsScale_ends.1.trans (lhsScale_mono (hle j) (hx j).1), (lhsScale_mono (hle j) (hx j).2).trans lhsScale_ends.2⟩

section
variable {σ : Type} [NumFns F64] {R : Rng σ F64} {env : Env} {srt : Argsort F64} {eigh : CMAES.Eigh F64} {fuel : Nat} {g : σ}
  {a : Evo.Args F64} {junk : Vec F64 a.ndim} {o : Output σ F64 a.p a.ndim}

/-- All points satisfy the bounds up to the fraction `2 ^ (-53)` of the larger bound, rounded. -/
theorem C89_cmaes_partial (he : env.Ok) (h : CMAES.minimize env R srt eigh fuel a junk g = .ok o) (hc0 : a.constraints = some "Penalize")
    (hle : ∀ j, a.lower j ≤ a.upper j) : AllInBox (widened a.lower a.upper).1 (widened a.lower a.upper).2 o := by
  obtain ⟨fn, obj, pen, m, hd, hfn, hv, hobj, hb, hc, hm, hrun⟩ := CMAES.minimize_ok he h
  obtain ⟨gs, gn, L', L, st, H⟩ := run_reach hrun
  exact H.clipped ((consMap_ok hc).2.2 hc0) (by decide +kernel) fun _ => unstandardize_widened hle

theorem C89_vdcma_partial (he : env.Ok) (h : VDCMA.minimize env R srt fuel a junk g = .ok o) (hc0 : a.constraints = some "Penalize")
    (hle : ∀ j, a.lower j ≤ a.upper j) : AllInBox (widened a.lower a.upper).1 (widened a.lower a.upper).2 o := by
  obtain ⟨fn, obj, pen, m, hd, hfn, hv, hobj, hb, hc, hm, hrun⟩ := VDCMA.minimize_ok he h
  obtain ⟨gs, gn, L', L, st, H⟩ := run_reach hrun
  exact H.clipped ((consMap_ok hc).2.2 hc0) (by decide +kernel) fun _ => unstandardize_widened hle

end

section
attribute [local instance 2000] early

/-- The runs above meet the hypotheses. -/
example : (∃ o, CMAES.minimize Concrete.env (normals [0, 3, -1]) stableArgsort eighDiag64 10 clipArgs (fun _ => 0) 0 = .ok o ∧
      AllInBox (widened clipArgs.lower clipArgs.upper).1 (widened clipArgs.lower clipArgs.upper).2 o) ∧
    ∃ o, VDCMA.minimize Concrete.env (normals [0, 1, 3, -1]) stableArgsort 10 clipArgs (fun _ => 0) 0 = .ok o ∧
      AllInBox (widened clipArgs.lower clipArgs.upper).1 (widened clipArgs.lower clipArgs.upper).2 o := by
  obtain ⟨o, h, -, h1, h2, -⟩ := C89_cmaes_violated
  obtain ⟨o', h', -⟩ := C89_vdcma_violated
  exact ⟨⟨o, h, C89_cmaes_partial env_ok h h1 h2⟩, o', h', C89_vdcma_partial env_ok h' h1 h2⟩

end

end Stochopy
