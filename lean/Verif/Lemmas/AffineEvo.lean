import Verif.Lemmas.Affine
import Verif.Model.VDCMA

/-! `cmaes` and `vdcma` under a change of origin and units: the run inside the cube is the same. -/

set_option linter.unusedSectionVars false

namespace Stochopy.Evo
variable {K σ S : Type} [Field K] [LinearOrder K] [IsStrictOrderedRing K] [NumFns K] [FloorRing K] {p n : Nat}

theorem unstandardize_affine (s t : Nat → K) (lower upper x : Vec K n) :
    unstandardize (affine s t lower) (affine s t upper) x = affine s t (unstandardize lower upper x) := by
  funext j
  unfold unstandardize affine
  ring

theorem standardize_affine {s t : Nat → K} (hs : ∀ j, 0 < s j) (lower upper x : Vec K n) :
    standardize (affine s t lower) (affine s t upper) (affine s t x) = standardize lower upper x := by
  funext j
  unfold standardize affine
  rw [show s j * x j + t j - 1 / 2 * (s j * upper j + t j + (s j * lower j + t j)) =
      s j * (x j - 1 / 2 * (upper j + lower j)) by ring,
    show 1 / 2 * (s j * upper j + t j - (s j * lower j + t j)) = s j * (1 / 2 * (upper j - lower j)) by ring,
    mul_div_mul_left _ _ (hs j).ne']

/-- Parameters of the frame that differ by a change of coordinates. -/
structure Same (ψ : Vec K n → Vec K n) (P P' : Par K n) : Prop where
  unst : ∀ x, unstandardize P'.lower P'.upper x = ψ (unstandardize P.lower P.upper x)
  pop : ∀ {p : Nat} (X : Pop K p n), P'.obj.pop (fun i => ψ (X i)) = P.obj.pop X
  srt : P'.srt = P.srt
  xtol : P'.xtol = P.xtol
  ftol : P'.ftol = P.ftol
  mueff : P'.mueff = P.mueff
  insigma : P'.insigma = P.insigma
  ilim : P'.ilim = P.ilim
  penalized : P'.penalized = P.penalized

def St.map (ψ : Vec K n → Vec K n) (L : St S K p n) : St S K p n :=
  { s := L.s, it := L.it, nfev := L.nfev, pen := L.pen, arbest := L.arbest, rowsX := L.rowsX.map (List.map ψ), rowsF := L.rowsF,
    cbs := L.cbs.map (CB.map id ψ ψ), evals := L.evals.map ψ }

def Gen.map (ψ : Vec K n → Vec K n) (r : Gen K p n) : Gen K p n :=
  { X := fun i => ψ (r.X i), fit := r.fit, best := r.best, status := r.status }

variable {ψ : Vec K n → Vec K n} {P P' : Par K n} {G : Gauss S K p n} {c : Cfg}

theorem Same.evaluate (h : Same ψ P P') (it : Nat) (arx : Pop K p n) (s : S) (pen : Pen K n) :
    evaluate P' G it arx s pen = evaluate P G it arx s pen := by
  unfold Evo.evaluate
  simp only [h.unst, h.pop, h.srt, h.mueff, h.penalized]

theorem record_map (it : Nat) (X : Pop K p n) (fit : Fin p → Val K) :
    record c it (fun i => ψ (X i)) fit = (record c it X fit).map fun r => (r.1.map (List.map ψ), r.2) := by
  unfold record
  split_ifs
  · rfl
  · simp [Except.map, List.map_take, List.map_ofFn, Function.comp_def]
  · simp [Except.map, List.flatMap_def, List.map_ofFn, Function.comp_def]
  · rfl
  · rw [map_bind_ex]; rfl
  · rw [map_bind_ex]; congr 1
  · rfl

theorem mapRows_same (l : List (List (Vec K n))) : mapRows ψ ψ l = l.map (List.map ψ) := by cases l <;> rfl

theorem Same.body (h : Same ψ P P') (L : St S K p n) :
    Evo.body P' G c (L.map ψ) = (Evo.body P G c L).map fun r => (r.1.map ψ, r.2.map ψ) := by
  unfold Evo.body
  simp only [map_bind_ex]
  show (G.sample L.s >>= _) = _
  congr 1
  funext a
  show (Evo.evaluate P' G (L.it + 1) a.1 a.2 L.pen >>= _) = _
  rw [h.evaluate]
  congr 1
  funext e
  simp only [h.unst]
  rw [record_map, bind_map_ex]
  show (record c (L.it + 1) _ _ >>= _) = _
  congr 1
  funext rows
  by_cases hp : 0 < p
  swap
  · rw [dif_neg hp, dif_neg hp]; rfl
  rw [dif_pos hp, dif_pos hp]
  by_cases h1 : c.maxiter ≤ ((L.it + 1 : Nat) : Int) - 1
  · rw [if_pos h1]; refine (if_pos h1).trans ?_; rfl
  · rw [if_neg h1]; refine (if_neg h1).trans ?_
    simp only [map_bind_ex]
    rw [h.srt, h.xtol, h.ftol, h.insigma, h.ilim]
    show (G.update (L.nfev + p) a.1 (P.srt p e.1) a.2 >>= _) = _
    congr 1
    funext s
    congr 1
    funext _
    show Except.ok _ = Except.ok _
    congr 1
    refine Prod.ext ?_ rfl
    show St.mk _ _ _ _ _ _ _ _ _ = St.map ψ _
    unfold St.map
    congr 1
    · rw [List.map_append]
    · dsimp only
      split_ifs
      · rw [List.map_append]
        congr 1
        show [CB.mk _ _ _ _ _ _ _] = [CB.map _ _ _ _]
        unfold CB.map attach
        congr 2
        · split_ifs
          · show some _ = some _
            rw [mapRows_same, List.map_append]
          · rfl
        · split_ifs
          · simp
          · rfl
      · rfl
    · rw [List.map_append, List.map_ofFn]; rfl

theorem Same.loop (h : Same ψ P P') : ∀ (fuel : Nat) (L : St S K p n),
    Evo.loop P' G c fuel (L.map ψ) = (Evo.loop P G c fuel L).map fun r => (r.1.map ψ, r.2.map ψ) := by
  intro fuel
  induction fuel with
  | zero => intro L; rfl
  | succ fuel ih =>
    intro L
    unfold Evo.loop
    simp only [map_bind_ex]
    rw [h.body, bind_map_ex]
    congr 1
    funext r
    show (if r.2.status.isSome = true then _ else _) = _
    split_ifs
    · rfl
    · exact ih r.1

theorem finish_map (r : St S K p n × Gen K p n) :
    finish c (r.1.map ψ, r.2.map ψ) = (finish c r).map (Result.map id ψ ψ) := by
  unfold finish
  show (match r.2.status with | none => _ | some status => _) = _
  cases r.2.status with
  | none => rfl
  | some st =>
    dsimp only
    cases messages st with
    | none => rfl
    | some msg =>
      show Except.ok _ = Except.ok _
      congr 1
      show Result.mk _ _ _ _ _ _ _ _ _ = Result.map _ _ _ _
      unfold Result.map attach
      congr 1
      · split_ifs
        · show some _ = some _; rw [mapRows_same]; rfl
        · rfl
      · split_ifs
        · simp [St.map]
        · rfl

theorem Same.run (h : Same ψ P P') (rng : S → σ) (fuel : Nat) (s0 : S) :
    Evo.run P' G c rng fuel s0 = (Evo.run P G c rng fuel s0).map (Output.map id ψ ψ) := by
  unfold Evo.run
  split_ifs
  · rfl
  · simp only [map_bind_ex]
    have e := h.loop (G := G) (c := c) fuel
      { s := s0, it := 0, nfev := 0, pen := Pen.start n,
        arbest := List.replicate c.maxiter.toNat (.fin 0), rowsX := [], rowsF := [], cbs := [], evals := [] }
    refine (congrArg (· >>= _) e).trans ?_
    rw [bind_map_ex]
    congr 1
    funext r
    rw [finish_map, bind_map_ex]
    rfl

end Stochopy.Evo

namespace Stochopy
open Evo
variable {K σ : Type} [AddZeroClass K] [One K] [Sub K] [Mul K] [Div K] [Neg K] [NatCast K] [IntCast K] [Pow K ℕ] [ArrayOps K] [LinearOrder K] [NumFns K] [IntParts K] {env : Env} {R : Rng σ K} {srt : Argsort K}
  {eigh : CMAES.Eigh K} {fuel : Nat} {g : σ} {a : Args K} {junk : Vec K a.ndim} {fn : Vec K a.ndim → Val K}

theorem CMAES.minimize_none (h : a.fn = none) : CMAES.minimize env R srt eigh fuel a junk g = .error .typeError := by
  unfold CMAES.minimize Args.validate
  rw [if_pos (by rw [h]; rfl)]
  rfl

theorem CMAES.minimize_some (he : env.Ok) (h : a.fn = some fn) :
    CMAES.minimize env R srt eigh fuel a junk g = a.validate >>= fun _ =>
      if a.backend = some "mpi" ∧ env.mpi4py = false then .error .importError
      else a.unpackBounds >>= fun _ => consMap a.constraints >>= fun pen => a.firstMean R (a.seeded R g) >>= fun m =>
        if h : 0 < a.ndim ∧ 0 < a.p ∧ 0 < a.mu ∧ a.mu ≤ a.p then
          run (a.par srt (plainObj fn) pen)
            (CMAES.gauss { R := R, srt := srt, eigh := eigh, mu := a.mu, hmu := h.2.2.2 }) a.cfg CMAES.State.rng fuel
            (CMAES.start m.1 junk a.sigma m.2)
        else .error .unmodelled := by
  unfold CMAES.minimize
  simp only [h]
  congr 1
  funext _
  rw [optimizer_eq he]
  simp only [true_and]

theorem VDCMA.minimize_none (h : a.fn = none) : VDCMA.minimize env R srt fuel a junk g = .error .typeError := by
  unfold VDCMA.minimize Args.validate
  rw [if_pos (by rw [h]; rfl)]
  rfl

theorem VDCMA.minimize_some (he : env.Ok) (h : a.fn = some fn) :
    VDCMA.minimize env R srt fuel a junk g = a.validate >>= fun _ =>
      if a.backend = some "mpi" ∧ env.mpi4py = false then .error .importError
      else a.unpackBounds >>= fun _ => consMap a.constraints >>= fun pen => a.firstMean R (a.seeded R g) >>= fun m =>
        if h : 0 < a.ndim ∧ 0 < a.p ∧ 0 < a.mu ∧ a.mu ≤ a.p then
          run (a.par srt (plainObj fn) pen) (VDCMA.gauss { R := R, mu := a.mu, hmu := h.2.2.2 }) a.cfg VDCMA.State.rng fuel
            (VDCMA.start R m.1 junk a.sigma m.2)
        else .error .unmodelled := by
  unfold VDCMA.minimize
  simp only [h]
  congr 1
  funext _
  rw [optimizer_eq he]
  simp only [true_and]

section field
variable {K σ : Type} [Field K] [LinearOrder K] [NumFns K] [FloorRing K] {env : Env} {R : Rng σ K} {srt : Argsort K}
  {eigh : CMAES.Eigh K} {fuel : Nat} {g : σ} {a : Args K} {junk : Vec K a.ndim} {fn : Vec K a.ndim → Val K}
variable [IsStrictOrderedRing K]

theorem Evo.validate_affine (s t : Nat → K) : (a.affine s t).validate = a.validate := by
  obtain ⟨⟨_, fn, x0, _, _, _, _, _, _, _, _, _, _⟩, _, _, _⟩ := a
  cases fn <;> cases x0 <;> rfl

theorem Evo.firstMean_affine {s : Nat → K} (hs : ∀ j, 0 < s j) (t : Nat → K) (g : σ) :
    (a.affine s t).firstMean R g = a.firstMean R g := by
  obtain ⟨⟨b, fn, x0, _, _, _, _, _, _, _, _, _, _⟩, _, _, _⟩ := a
  cases x0 with
  | none => rfl
  | some x =>
    have e : ∀ j : Fin b.len, (s j * b.get [j, 0] + t j ≠ s j * b.get [j, 1] + t j) ↔ b.get [j, 0] ≠ b.get [j, 1] := by
      intro j
      refine not_congr ⟨fun h => ?_, fun h => by rw [h]⟩
      exact mul_left_cancel₀ (hs j).ne' (add_right_cancel h)
    have e2 := standardize_affine hs (t := t) (fun j : Fin b.len => b.get [j, 0]) (fun j => b.get [j, 1]) fun j => x.get [j]
    show (need (∀ j : Fin b.len, s j * b.get [j, 0] + t j ≠ s j * b.get [j, 1] + t j) >>= fun _ =>
      Except.ok (standardize (affine s t fun j : Fin b.len => b.get [j, 0]) (affine s t fun j => b.get [j, 1])
        (affine s t fun j => x.get [j]), g)) = _
    rw [e2]
    simp only [e]
    rfl

/-- The frame in the new coordinates. -/
theorem Evo.same_affine {s : Nat → K} (hs : ∀ j, 0 < s j) (t : Nat → K) (pen : Bool) :
    Evo.Same (affine s t) (a.par srt (plainObj fn) pen)
      ((a.affine s t).par srt (plainObj fun x => fn fun j => (x j - t j) / s j) pen) where
  unst x := unstandardize_affine s t a.lower a.upper x
  pop X := by
    funext i
    show fn _ = fn _
    congr 1
    funext j
    unfold affine
    rw [add_sub_cancel_right, mul_div_cancel_left₀ _ (hs j).ne']
  srt := rfl
  xtol := rfl
  ftol := rfl
  mueff := rfl
  insigma := rfl
  ilim := rfl
  penalized := rfl

end field

end Stochopy
