import Verif.Lemmas.Records
import Verif.Props.Raise

/-!
# C114: a callback of an optimizer may write into the history it is given

The run is the one whose callback writes nothing, except for what is written into `xall` and `funall`: the search, the reported solution and the other
arguments of the callback are the same, later rows are recorded as before, and the returned history holds what the calls left in it.
-/

namespace Stochopy

section
variable {S K σ : Type} [Zero K] [One K] [Add K] [Sub K] [Mul K] [Div K] [Neg K] [NatCast K] [IntCast K] [Pow K ℕ] [ArrayOps K] [LinearOrder K]
  [IntParts K]

theorem C114_de {env : Env} {R : Rng σ K} {fuel : Nat} {a : DE.Args K} {w : HistWrites K a.ndim} {g : σ} (hc : a.callback.isSome = true) :
    DE.minimizeH env R fuel a w g = (DE.minimize env R fuel a g).map (Output.withWrites w) := by
  unfold DE.minimizeH DE.minimize
  refine bind_writes fun strat _ => ?_
  cases a.fn with
  | none => rfl
  | some fn =>
    refine optimizer_writes fun obj => bind_writes fun _ _ => bind_writes fun cons _ => ?_
    unfold DE.de
    refine bind_writes fun s0 _ => ?_
    refine (run_out_writes (p := a.p) (n := a.ndim) (w := w) (fun r => rfl) fuel s0).trans ?_
    simp only [CommonArgs.cfg, hc]
    rfl

variable [NumFns K]

theorem C114_cpso {env : Env} {R : Rng σ K} {srt : Argsort K} {fuel : Nat} {a : CPSO.Args K} {w : HistWrites K a.ndim} {g : σ}
    (hc : a.callback.isSome = true) : CPSO.minimizeH env R srt fuel a w g = (CPSO.minimize env R srt fuel a g).map (Output.withWrites w) := by
  unfold CPSO.minimizeH CPSO.minimize
  refine bind_writes fun _ _ => ?_
  cases a.fn with
  | none => rfl
  | some fn =>
    refine optimizer_writes fun obj => bind_writes fun _ _ => bind_writes fun cons _ => ?_
    unfold CPSO.cpso
    refine bind_writes fun s0 _ => ?_
    refine (run_out_writes (p := a.p) (n := a.ndim) (w := w) (fun r => rfl) fuel s0).trans ?_
    simp only [CommonArgs.cfg, hc]
    rfl

theorem C114_pso {env : Env} {R : Rng σ K} {srt : Argsort K} {fuel : Nat} {a : PSO.Args K} {w : HistWrites K a.toCPSO.ndim} {g : σ}
    (hc : a.callback.isSome = true) : PSO.minimizeH env R srt fuel a w g = (PSO.minimize env R srt fuel a g).map (Output.withWrites w) :=
  C114_cpso (a := a.toCPSO) hc

theorem C114_na {env : Env} {R : Rng σ K} {srt : Argsort K} {fuel : Nat} {a : NA.Args K} {w : HistWrites K a.ndim} {g : σ}
    (hc : a.callback.isSome = true) : NA.minimizeH env R srt fuel a w g = (NA.minimize env R srt fuel a g).map (Output.withWrites w) := by
  unfold NA.minimizeH NA.minimize
  refine bind_writes fun _ _ => ?_
  cases a.fn with
  | none => rfl
  | some fn =>
    refine optimizer_writes fun obj => bind_writes fun _ _ => ?_
    unfold NA.na
    refine bind_writes fun s0 _ => ?_
    refine (run_out_writes (p := a.p) (n := a.ndim) (w := w) (fun r => rfl) fuel s0).trans ?_
    simp only [CommonArgs.cfg, hc]
    rfl

theorem C114_cmaes {env : Env} {R : Rng σ K} {srt : Argsort K} {eigh : CMAES.Eigh K} {fuel : Nat} {a : Evo.Args K} {w : HistWrites K a.ndim}
    {junk : Vec K a.ndim} {g : σ} (hc : a.callback.isSome = true) :
    CMAES.minimizeH env R srt eigh fuel a w junk g = (CMAES.minimize env R srt eigh fuel a junk g).map (Output.withWrites w) := by
  unfold CMAES.minimizeH CMAES.minimize
  refine bind_writes fun _ _ => ?_
  cases a.fn with
  | none => rfl
  | some fn =>
    refine optimizer_writes fun obj => bind_writes fun _ _ => bind_writes fun pen _ => bind_writes fun m _ => ?_
    split_ifs
    · refine (Evo.run_rewritten (p := a.p) (n := a.ndim) (w := w) fuel _).trans ?_
      simp only [CommonArgs.cfg, hc]
      rfl
    · rfl

theorem C114_vdcma {env : Env} {R : Rng σ K} {srt : Argsort K} {fuel : Nat} {a : Evo.Args K} {w : HistWrites K a.ndim}
    {junk : Vec K a.ndim} {g : σ} (hc : a.callback.isSome = true) :
    VDCMA.minimizeH env R srt fuel a w junk g = (VDCMA.minimize env R srt fuel a junk g).map (Output.withWrites w) := by
  unfold VDCMA.minimizeH VDCMA.minimize
  refine bind_writes fun _ _ => ?_
  cases a.fn with
  | none => rfl
  | some fn =>
    refine optimizer_writes fun obj => bind_writes fun _ _ => bind_writes fun pen _ => bind_writes fun m _ => ?_
    split_ifs
    · refine (Evo.run_rewritten (p := a.p) (n := a.ndim) (w := w) fuel _).trans ?_
      simp only [CommonArgs.cfg, hc]
      rfl
    · rfl

end

/-! ## What `withWrites` leaves alone -/

section
variable {σ K : Type} {p n : Nat}

theorem C114_same (w : HistWrites K n) (o : Output σ K p n) :
    (o.withWrites w).evals = o.evals ∧ (o.withWrites w).rng = o.rng ∧ (o.withWrites w).x0After = o.x0After ∧
      (o.withWrites w).res.x = o.res.x ∧ (o.withWrites w).res.fval = o.res.fval ∧ (o.withWrites w).res.success = o.res.success ∧
      (o.withWrites w).res.status = o.res.status ∧ (o.withWrites w).res.message = o.res.message ∧ (o.withWrites w).res.nfev = o.res.nfev ∧
      (o.withWrites w).res.nit = o.res.nit ∧
      (o.withWrites w).cbs.map (fun b => (b.X, b.x, b.fval, b.nfev, b.nit)) = o.cbs.map (fun b => (b.X, b.x, b.fval, b.nfev, b.nit)) := by
  have hr : ∀ r : Result K n, (r.withWrites w).x = r.x ∧ (r.withWrites w).fval = r.fval ∧ (r.withWrites w).success = r.success ∧
      (r.withWrites w).status = r.status ∧ (r.withWrites w).message = r.message ∧ (r.withWrites w).nfev = r.nfev ∧
      (r.withWrites w).nit = r.nit := by
    intro r
    unfold Result.withWrites
    split <;> exact ⟨rfl, rfl, rfl, rfl, rfl, rfl, rfl⟩
  obtain ⟨h1, h2, h3, h4, h5, h6, h7⟩ := hr o.res
  refine ⟨rfl, rfl, rfl, h1, h2, h3, h4, h5, h6, h7, ?_⟩
  show (o.cbs.map (CB.withWrites w)).map _ = _
  rw [List.map_map]
  refine List.map_congr_left fun b _ => ?_
  show _ = _
  dsimp only [Function.comp_apply]
  unfold CB.withWrites
  split <;> rfl

/-- Rows into which no call writes are returned as they were recorded. -/
theorem C114_kept (w : HistWrites K n) (o : Output σ K p n) {X : List (List (Vec K n))} {F : List (List (Val K))} (hX : o.res.xall = some X)
    (hF : o.res.funall = some F) (hl : X.length = F.length) :
    ∃ X' F', (o.withWrites w).res.xall = some X' ∧ (o.withWrites w).res.funall = some F' ∧ X'.map List.length = X.map List.length ∧
      F'.map List.length = F.map List.length ∧ (∀ i, (∀ k h j v, w.x k h i j v = v) → X'[i]? = X[i]?) ∧
      ∀ i, (∀ k h j v, w.f k h i j v = v) → F'[i]? = F[i]? := by
  refine ⟨(w.after X F).1, (w.after X F).2, ?_, ?_, ?_⟩
  · show (o.res.withWrites w).xall = _
    unfold Result.withWrites
    rw [hX, hF]
  · show (o.res.withWrites w).funall = _
    unfold Result.withWrites
    rw [hX, hF]
  · exact w.after_kept hl

end

/-! ## Cases -/

namespace Concrete

/-- A callback that erases the row just recorded: zeros, and the value 7. -/
def erase (n : Nat) : HistWrites ℚ n := { x := fun k _ i _ v => if i = k ∧ k ≠ 2 then 0 else v, f := fun k _ i _ v => if i = k ∧ k ≠ 2 then .fin 7 else v }

/-- Rows 0 and 1 hold 7, row 2 does not, and the call for row 1 sees 7 in row 0 only. -/
def erased {p n : Nat} (o : Output Nat ℚ p n) : Bool :=
  match o.res.funall with
  | some [r0, r1, r2] => (r0 ++ r1).all (fun v => decide (v = .fin 7)) && r2.all (fun v => decide (v ≠ .fin 7)) && decide (0 < r0.length) &&
      match o.cbs.map (fun b => b.funall) with
      | [_, some [s0, s1], _] => s0.all (fun v => decide (v = .fin 7)) && s1.all fun v => decide (v ≠ .fin 7)
      | _ => false
  | _ => false

end Concrete

open Concrete

example : ∃ o, DE.minimizeH env rng 10 { deArgs with returnAll := true, verbosity := 1 } (erase _) 0 = .ok o ∧ erased o = true :=
  returns_iff (t := fun o : Output Nat ℚ _ _ => erased o) (by decide +kernel)

example : ∃ o, CPSO.minimizeH env rng stableArgsort 10 { cpsoArgs with returnAll := true, verbosity := 1 } (erase _) 0 = .ok o ∧ erased o = true :=
  returns_iff (t := fun o : Output Nat ℚ _ _ => erased o) (by decide +kernel)

example : ∃ o, NA.minimizeH env rng stableArgsort 10 { naArgs with returnAll := true, verbosity := 1 } (erase _) 0 = .ok o ∧ erased o = true :=
  returns_iff (t := fun o : Output Nat ℚ _ _ => erased o) (by decide +kernel)

example : ∃ o, CMAES.minimizeH env rng stableArgsort eighDiag 10 { evoArgs with returnAll := true, verbosity := 1 } (erase _) junk0 0 = .ok o ∧
    erased o = true :=
  returns_iff (t := fun o : Output Nat ℚ _ _ => erased o) (by decide +kernel)

example : ∃ o, VDCMA.minimizeH env rng stableArgsort 10 { evoArgs with returnAll := true, verbosity := 1 } (erase _) junk0 0 = .ok o ∧
    erased o = true :=
  returns_iff (t := fun o : Output Nat ℚ _ _ => erased o) (by decide +kernel)

end Stochopy
