import Verif.Lemmas.RotationRun

/-! # C99: `cmaes` does not depend on the coordinate system -/

set_option linter.unusedSectionVars false

namespace Stochopy.Props
open Evo Spec Matrix
variable {n : Nat} {Q : Matrix (Fin n) (Fin n) ℝ} {lower upper : Vec ℝ n}

theorem unstandardize_turn (hb : ∀ j, lower j ≠ upper j) (x : Vec ℝ n) :
    unstandardize lower upper (Q *ᵥ x) = turn lower upper Q (unstandardize lower upper x) := by
  funext j
  unfold unstandardize turn
  have e : ∀ k, (x k * (1 / 2 * (upper k - lower k)) + 1 / 2 * (upper k + lower k) - (lower k + upper k) / 2) / ((upper k - lower k) / 2) = x k := by
    intro k
    have : upper k - lower k ≠ 0 := sub_ne_zero.2 (hb k).symm
    field_simp
    ring
  simp only [e]
  show (∑ k, Q j k * x k) * _ + _ = _
  ring

theorem standardize_turn (hb : ∀ j, lower j ≠ upper j) (x : Vec ℝ n) :
    standardize lower upper (turn lower upper Q x) = Q *ᵥ standardize lower upper x := by
  funext j
  unfold standardize turn
  have hj : upper j - lower j ≠ 0 := sub_ne_zero.2 (hb j).symm
  have e : ∀ k, (x k - 1 / 2 * (upper k + lower k)) / (1 / 2 * (upper k - lower k)) = (x k - (lower k + upper k) / 2) / ((upper k - lower k) / 2) :=
    fun k => by
      rw [show 1 / 2 * (upper k + lower k) = (lower k + upper k) / 2 by ring, show 1 / 2 * (upper k - lower k) = (upper k - lower k) / 2 by ring]
  show _ = ∑ k, Q j k * ((x k - 1 / 2 * (upper k + lower k)) / (1 / 2 * (upper k - lower k)))
  simp only [e]
  rw [div_eq_iff (by simpa using hj)]
  ring

/-- Turning back. -/
theorem turn_back (hQ : Qᵀ * Q = 1) (hb : ∀ j, lower j ≠ upper j) (x : Vec ℝ n) :
    turn lower upper Qᵀ (turn lower upper Q x) = x := by
  have hx : unstandardize lower upper (standardize lower upper x) = x := by
    funext j
    unfold unstandardize standardize
    have hj : upper j - lower j ≠ 0 := sub_ne_zero.2 (hb j).symm
    field_simp
    ring
  rw [← hx, ← unstandardize_turn hb, ← unstandardize_turn hb, Matrix.mulVec_mulVec, hQ, Matrix.one_mulVec]

variable {env : Env} {srt : Argsort ℝ} {eigh : CMAES.Eigh ℝ}

/-- C99: `cmaes` without constraints does not depend on the coordinate system.  There are rotations `U`, each of them determined by the
earlier generations, such that turning the problem by `Q` and the normal numbers of each generation by `U` turns the run: the points
of every generation are turned by `Q` and have the same values, until one of the runs ends. -/
theorem C99_cmaes (he : env.Ok) (heig : IsEigh eigh) {a : Args ℝ} {Q : Matrix (Fin a.ndim) (Fin a.ndim) ℝ} (hQ : Orthonormal Q)
    (hc : a.constraints = none) {x : NdArr ℝ} (hx : a.x0 = some x) :
    ∃ U : List (Fin a.p → Vec ℝ a.ndim) → Matrix (Fin a.ndim) (Fin a.ndim) ℝ, (∀ l, Orthonormal (U l)) ∧
      ∀ {σ τ : Type} (R : Rng σ ℝ) (R' : Rng τ ℝ) (fuel fuel' : Nat) (junk junk' : Vec ℝ a.ndim) (g : σ) (g' : τ)
        (o : Output σ ℝ a.p a.ndim) (o' : Output τ ℝ a.p a.ndim),
        TurnedBy U (R.normals a.p a.ndim (a.seeded R g)) (R'.normals a.p a.ndim (a.seeded R' g')) →
        CMAES.minimize env R srt eigh fuel a junk g = .ok o →
        CMAES.minimize env R' srt eigh fuel' (a.turn Q) junk' g' = .ok o' →
        SameTurned (turn (lo a.toCommonArgs) (hi a.toCommonArgs) Q) o o' := by
  have hQ' := CMAES.orthonormal_iff.1 hQ
  by_cases hd : (∃ fn, a.fn = some fn) ∧ 0 < a.ndim ∧ 0 < a.p ∧ 0 < a.mu ∧ a.mu ≤ a.p
  swap
  · refine ⟨fun _ => 1, fun _ => by rw [CMAES.orthonormal_iff, transpose_one, Matrix.one_mul], ?_⟩
    intro σ τ R R' fuel fuel' junk junk' g g' o o' _ h _
    obtain ⟨fn, obj, pen, m, h1, h2, -⟩ := CMAES.minimize_ok he h
    exact absurd ⟨⟨fn, h2⟩, h1⟩ hd
  obtain ⟨⟨fn, hfn⟩, hd⟩ := hd
  let A : CMAES.Par Unit ℝ a.p a.ndim := { R := CMAES.unitRng, srt := srt, eigh := eigh, mu := a.mu, hmu := hd.2.2.2 }
  let m0 : Vec ℝ a.ndim := standardize a.lower a.upper fun j => x.get [j]
  let t0 : CMAES.Pair a.ndim := ⟨CMAES.forget (CMAES.start m0 (fun _ => 0) a.sigma ()),
    CMAES.forget (CMAES.start (Q *ᵥ m0) (fun _ => 0) a.sigma ()), 0⟩
  refine ⟨CMAES.spins A Q (fun X i => fn (unstandardize a.lower a.upper (X i))) t0, fun l => CMAES.spins_orth _ _ _ _ _, ?_⟩
  intro σ τ R R' fuel fuel' junk junk' g g' o o' hz h h'
  obtain ⟨fn1, obj, pen, m, hd1, f1, -, hobj, -, hcm, hm, hrun⟩ := CMAES.minimize_ok he h
  obtain ⟨fn2, obj', pen', m', hd2, f2, -, hobj', -, hcm', hm', hrun'⟩ := CMAES.minimize_ok he h'
  obtain rfl : fn1 = fn := Option.some.inj (f1.symm.trans hfn)
  have f2' : (fun x => fn1 (turn (lo a.toCommonArgs) (hi a.toCommonArgs) Qᵀ x)) = fn2 := by
    have : (a.turn Q).fn = some (fun x => fn1 (turn (lo a.toCommonArgs) (hi a.toCommonArgs) Qᵀ x)) := by
      show a.fn.map _ = _
      rw [hfn]; rfl
    exact Option.some.inj (this.symm.trans f2)
  obtain rfl := consMap_none hc hcm
  obtain rfl := consMap_none (a := a.turn Q) hc hcm'
  have hb : (∀ j, a.lower j ≠ a.upper j) ∧ m = (m0, a.seeded R g) := by
    unfold Args.firstMean at hm
    rw [hx] at hm
    dsimp only at hm
    rw [bind_ok_iff] at hm
    obtain ⟨u, h1, h2⟩ := hm
    exact ⟨need_ok.1 h1, (Except.ok.inj h2).symm⟩
  obtain ⟨hb, rfl⟩ := hb
  have hm2 : m' = (Q *ᵥ m0, a.seeded R' g') := by
    unfold Args.firstMean at hm'
    have hx' : (a.turn Q).x0 = some (x.turn (lo a.toCommonArgs) (hi a.toCommonArgs) Q) := by
      show a.x0.map _ = _
      rw [hx]; rfl
    rw [hx'] at hm'
    dsimp only at hm'
    rw [bind_ok_iff] at hm'
    obtain ⟨u, h1, h2⟩ := hm'
    rw [← Except.ok.inj h2]
    refine Prod.ext ?_ rfl
    refine Eq.trans ?_ (standardize_turn hb _)
    show standardize a.lower a.upper (fun j : Fin a.ndim => (x.turn (lo a.toCommonArgs) (hi a.toCommonArgs) Q).get [j.val]) = _
    congr 1
    funext i
    exact dif_pos i.isLt
  subst hm2
  refine CMAES.run_turned (Q := Q) (P := a.par srt obj false) (P' := a.par srt obj' false)
    (A := { R := R, srt := srt, eigh := eigh, mu := a.mu, hmu := hd1.2.2.2 })
    (A' := { R := R', srt := srt, eigh := eigh, mu := a.mu, hmu := hd1.2.2.2 }) (c := a.cfg) (c' := (a.turn Q).cfg)
    heig hQ' ⟨unstandardize_turn hb, fun X => ?_, rfl, rfl, rfl, rfl, rfl, rfl, rfl⟩ rfl rfl rfl (CMAES.turned_start hQ') ?_ hrun hrun'
  · funext i
    have e1 : obj'.pop (fun i => turn (lo a.toCommonArgs) (hi a.toCommonArgs) Q (X i)) i =
        fn2 (turn (lo a.toCommonArgs) (hi a.toCommonArgs) Q (X i)) := hobj'.pop _ _
    refine e1.trans ?_
    rw [← f2']
    exact (congrArg fn1 (turn_back hQ' hb (X i))).trans (hobj.pop X i).symm
  · have e : (fun X : Pop ℝ a.p a.ndim => obj.pop fun i => unstandardize a.lower a.upper (X i)) =
        fun X i => fn1 (unstandardize a.lower a.upper (X i)) := by
      funext X i
      exact hobj.pop _ _
    show TurnedBy (CMAES.spins A Q (fun X : Pop ℝ a.p a.ndim => obj.pop fun i => unstandardize a.lower a.upper (X i)) t0) _ _
    rw [e]
    exact hz

end Stochopy.Props
