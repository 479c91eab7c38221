import Verif.Lemmas.SigmaArg
import Verif.Props.EvoRuns

/-!
# C106: `sigma` as an array in `cmaes` and `vdcma`

The documentation allows "scalar or array_like".  Lists and arrays with more than one entry are rejected (violated).  An array with one entry is
accepted, but the run overwrites it, and the tests `TolXUp` and `TolX` compare the step size with itself instead of the initial one
(violated).  Up to these tests the run is that of the number (partial).
-/

namespace Stochopy

open Evo Spec Concrete

section
variable {K σ : Type} [Field K] [LinearOrder K] [NumFns K] [IntParts K] {env : Env} {R : Rng σ K} {srt : Argsort K} {eigh : CMAES.Eigh K}
  {fuel fuel' : Nat} {a : Evo.Args K} {junk : Vec K a.ndim} {g : σ} {o o' : Output σ K a.p a.ndim} {s : K} {l l' : SigmaArg K}

theorem optimizer_map_of {T T' : Type} {n : Nat} {fn : Vec K n → Val K} {sync : Bool} {workers : Int} {backend : Option String} {f : T → T'}
    {F : Obj K n → Except PyErr T} {F' : Obj K n → Except PyErr T'} (h : ∀ obj, F' obj = (F obj).map f) :
    optimizer env fn sync workers backend F' = (optimizer env fn sync workers backend F).map f := by
  rw [show F' = fun obj => (F obj).map f from funext h]
  unfold optimizer
  dsimp only [bind, Except.bind]
  split_ifs
  · cases wrapper env fn sync (effBackend backend) true <;> rfl
  · cases wrapper env fn sync (effBackend backend) (effBackend backend == "mpi") <;> rfl

theorem bind_map_of {A T T' : Type} {f : T → T'} {m : Except PyErr A} {F : A → Except PyErr T} {F' : A → Except PyErr T'}
    (h : ∀ x, F' x = (F x).map f) : (m >>= F') = (m >>= F).map f := by
  cases m with
  | error e => rfl
  | ok x => exact h x

theorem dite_map_of {T T' : Type} {f : T → T'} {e : PyErr} {c : Prop} [Decidable c] {F : c → Except PyErr T} {F' : c → Except PyErr T'}
    (h : ∀ hc, F' hc = (F hc).map f) : (if hc : c then F' hc else .error e) = (if hc : c then F hc else .error e).map f := by
  by_cases hc : c
  · rw [dif_pos hc, dif_pos hc]; exact h hc
  · rw [dif_neg hc, dif_neg hc]; rfl

/-- A number: the `minimize` of the other claims, and nothing is overwritten. -/
theorem C106_scalar_cmaes : CMAES.minimizeSigma env R srt eigh fuel a (.scalar s) junk g =
    (CMAES.minimize env R srt eigh fuel { a with sigma := s } junk g).map fun o => (o, .scalar s) := by
  unfold CMAES.minimizeSigma CMAES.minimize
  rw [validateSigma_scalar]
  refine bind_map_of fun _ => ?_
  cases hf : a.fn with
  | none => rfl
  | some fn =>
    refine optimizer_map_of fun obj => bind_map_of fun _ => bind_map_of fun pen => bind_map_of fun m => ?_
    exact dite_map_of fun h => runBy_scalar s _ _ _ _ _ _

theorem C106_scalar_vdcma : VDCMA.minimizeSigma env R srt fuel a (.scalar s) junk g =
    (VDCMA.minimize env R srt fuel { a with sigma := s } junk g).map fun o => (o, .scalar s) := by
  unfold VDCMA.minimizeSigma VDCMA.minimize
  rw [validateSigma_scalar]
  refine bind_map_of fun _ => ?_
  cases hf : a.fn with
  | none => rfl
  | some fn =>
    refine optimizer_map_of fun obj => bind_map_of fun _ => bind_map_of fun pen => bind_map_of fun m => ?_
    exact dite_map_of fun h => runBy_scalar s _ _ _ _ _ _

/-- Violation: no list and no array with several entries (one for each variable, say) is accepted, whatever they contain. -/
theorem C106_cmaes_violated (hl : ∀ s, l ≠ .scalar s ∧ l ≠ .array [s]) : ∃ e, CMAES.minimizeSigma env R srt eigh fuel a l junk g = .error e := by
  obtain ⟨e, he⟩ := validateSigma_rejects a hl
  unfold CMAES.minimizeSigma
  rw [he]
  exact ⟨e, rfl⟩

theorem C106_vdcma_violated (hl : ∀ s, l ≠ .scalar s ∧ l ≠ .array [s]) : ∃ e, VDCMA.minimizeSigma env R srt fuel a l junk g = .error e := by
  obtain ⟨e, he⟩ := validateSigma_rejects a hl
  unfold VDCMA.minimizeSigma
  rw [he]
  exact ⟨e, rfl⟩

/-- An array whose entry is not positive is rejected. -/
theorem C106_positive_cmaes (hs : s ≤ 0) : ∃ e, CMAES.minimizeSigma env R srt eigh fuel a (.array [s]) junk g = .error e := by
  obtain ⟨e, he⟩ := validateSigma_positive a hs
  unfold CMAES.minimizeSigma
  rw [he]
  exact ⟨e, rfl⟩

theorem C106_positive_vdcma (hs : s ≤ 0) : ∃ e, VDCMA.minimizeSigma env R srt fuel a (.array [s]) junk g = .error e := by
  obtain ⟨e, he⟩ := validateSigma_positive a hs
  unfold VDCMA.minimizeSigma
  rw [he]
  exact ⟨e, rfl⟩

theorem optimizer_both_ok {T T' : Type} {n : Nat} {fn : Vec K n → Val K} {sync : Bool} {workers : Int} {backend : Option String}
    {F : Obj K n → Except PyErr T} {F' : Obj K n → Except PyErr T'} {x : T} {x' : T'}
    (h : optimizer env fn sync workers backend F = .ok x) (h' : optimizer env fn sync workers backend F' = .ok x') :
    ∃ obj, F obj = .ok x ∧ F' obj = .ok x' := by
  unfold optimizer at h h'
  dsimp only at h h'
  split_ifs at h h'
  all_goals
    rw [bind_ok_iff] at h h'
    obtain ⟨w, hw, h⟩ := h
    obtain ⟨w', hw', h'⟩ := h'
    rw [hw] at hw'
    cases hw'
    exact ⟨w, h, h'⟩

/-- Partial: an array with one entry and the entry itself give the same run, unless it is stopped by one of the tests on the scale of the
step size.  Missing: these tests, and that the array is left alone. -/
theorem C106_cmaes_partial (h : CMAES.minimizeSigma env R srt eigh fuel a (.scalar s) junk g = .ok (o, l))
    (h' : CMAES.minimizeSigma env R srt eigh fuel' a (.array [s]) junk g = .ok (o', l')) : Close o o' := by
  unfold CMAES.minimizeSigma at h h'
  rw [bind_ok_iff] at h h'
  obtain ⟨_, -, h⟩ := h
  obtain ⟨_, -, h'⟩ := h'
  split at h
  · cases h
  rename_i fn hfn
  split at h'
  · cases h'
  rename_i fn' hfn'
  obtain rfl := Option.some.inj (hfn.symm.trans hfn')
  obtain ⟨obj, h, h'⟩ := optimizer_both_ok h h'
  rw [bind_ok_iff] at h h'
  obtain ⟨_, -, h⟩ := h
  obtain ⟨_, -, h'⟩ := h'
  rw [bind_ok_iff] at h h'
  obtain ⟨pen, hp, h⟩ := h
  obtain ⟨pen', hp', h'⟩ := h'
  rw [hp] at hp'
  cases hp'
  rw [bind_ok_iff] at h h'
  obtain ⟨m, hm, h⟩ := h
  obtain ⟨m', hm', h'⟩ := h'
  rw [hm] at hm'
  cases hm'
  by_cases hd : 0 < a.ndim ∧ 0 < a.p ∧ 0 < a.mu ∧ a.mu ≤ a.p
  · rw [dif_pos hd] at h h'
    exact runBy_compare h h'
  · rw [dif_neg hd] at h; cases h

theorem C106_vdcma_partial (h : VDCMA.minimizeSigma env R srt fuel a (.scalar s) junk g = .ok (o, l))
    (h' : VDCMA.minimizeSigma env R srt fuel' a (.array [s]) junk g = .ok (o', l')) : Close o o' := by
  unfold VDCMA.minimizeSigma at h h'
  rw [bind_ok_iff] at h h'
  obtain ⟨_, -, h⟩ := h
  obtain ⟨_, -, h'⟩ := h'
  split at h
  · cases h
  rename_i fn hfn
  split at h'
  · cases h'
  rename_i fn' hfn'
  obtain rfl := Option.some.inj (hfn.symm.trans hfn')
  obtain ⟨obj, h, h'⟩ := optimizer_both_ok h h'
  rw [bind_ok_iff] at h h'
  obtain ⟨_, -, h⟩ := h
  obtain ⟨_, -, h'⟩ := h'
  rw [bind_ok_iff] at h h'
  obtain ⟨pen, hp, h⟩ := h
  obtain ⟨pen', hp', h'⟩ := h'
  rw [hp] at hp'
  cases hp'
  rw [bind_ok_iff] at h h'
  obtain ⟨m, hm, h⟩ := h
  obtain ⟨m', hm', h'⟩ := h'
  rw [hm] at hm'
  cases hm'
  by_cases hd : 0 < a.ndim ∧ 0 < a.p ∧ 0 < a.mu ∧ a.mu ≤ a.p
  · rw [dif_pos hd] at h h'
    exact runBy_compare h h'
  · rw [dif_neg hd] at h; cases h

end

/-! ## Concrete runs -/

/-- A step size for each of the two variables is not accepted, though each of them is. -/
theorem C106_two_steps :
    (∃ e, CMAES.minimizeSigma Concrete.env rng stableArgsort eighDiag 10 evoArgs (.array [1 / 10, 1 / 5]) junk0 0 = .error e) ∧
    (∃ o, CMAES.minimizeSigma Concrete.env rng stableArgsort eighDiag 10 evoArgs (.scalar (1 / 10)) junk0 0 = .ok o) ∧
    ∃ o, CMAES.minimizeSigma Concrete.env rng stableArgsort eighDiag 10 evoArgs (.scalar (1 / 5)) junk0 0 = .ok o := by
  refine ⟨C106_cmaes_violated fun s => ⟨nofun, fun h => nomatch (SigmaArg.array.inj h)⟩, ?_, ?_⟩
  · obtain ⟨o, h, -⟩ := returns_iff (r := CMAES.minimizeSigma Concrete.env rng stableArgsort eighDiag 10 evoArgs (.scalar (1 / 10)) junk0 0)
      (t := fun _ => true) (by decide +kernel)
    exact ⟨o, h⟩
  · obtain ⟨o, h, -⟩ := returns_iff (r := CMAES.minimizeSigma Concrete.env rng stableArgsort eighDiag 10 evoArgs (.scalar (1 / 5)) junk0 0)
      (t := fun _ => true) (by decide +kernel)
    exact ⟨o, h⟩

/-- What is left in a one-element array, if it is one. -/
def Concrete.leftover : SigmaArg ℚ → Option ℚ
  | .array [s] => some s
  | _ => none

/-- Violation: the array of the caller holds another number after the run. -/
theorem C106_overwritten_violated :
    (∃ o l, CMAES.minimizeSigma Concrete.env rng stableArgsort eighDiag 10 evoArgs (.array [1 / 10]) junk0 0 = .ok (o, l) ∧
      l ≠ .array [1 / 10] ∧ o.res.nit = 3) ∧
    (∃ o l, VDCMA.minimizeSigma Concrete.env rng stableArgsort 10 evoArgs (.array [1 / 10]) junk0 0 = .ok (o, l) ∧
      l ≠ .array [1 / 10] ∧ o.res.nit = 3) := by
  constructor
  · obtain ⟨o, h, t⟩ := returns_iff (r := CMAES.minimizeSigma Concrete.env rng stableArgsort eighDiag 10 evoArgs (.array [1 / 10]) junk0 0)
      (t := fun o => decide (leftover o.2 ≠ some (1 / 10)) && decide (o.1.res.nit = 3)) (by decide +kernel)
    rw [Bool.and_eq_true] at t
    exact ⟨o.1, o.2, h, fun e => of_decide_eq_true t.1 (by rw [e]; rfl), of_decide_eq_true t.2⟩
  · obtain ⟨o, h, t⟩ := returns_iff (r := VDCMA.minimizeSigma Concrete.env rng stableArgsort 10 evoArgs (.array [1 / 10]) junk0 0)
      (t := fun o => decide (leftover o.2 ≠ some (1 / 10)) && decide (o.1.res.nit = 3)) (by decide +kernel)
    rw [Bool.and_eq_true] at t
    exact ⟨o.1, o.2, h, fun e => of_decide_eq_true t.1 (by rw [e]; rfl), of_decide_eq_true t.2⟩

/-- A generator with large normal numbers. -/
def Concrete.wild : Rng Nat ℚ := { rng with randn := fun g => (10 * (((g * 3 + 1) % 5 : Nat) - 2), g + 1) }

/-- Violation: the step size grows a thousandfold; with a number this stops the run, with an array it does not. -/
theorem C106_scale_violated :
    ∃ o l o' l', CMAES.minimizeSigma Concrete.env wild stableArgsort eighDiag 10 { evoArgs with maxiter := 2 } (.scalar (1 / 10)) junk0 0 = .ok (o, l) ∧
      CMAES.minimizeSigma Concrete.env wild stableArgsort eighDiag 10 { evoArgs with maxiter := 2 } (.array [1 / 10]) junk0 0 = .ok (o', l') ∧
      o.res.status = -6 ∧ o'.res.status ≠ -6 ∧ o.res.nit < o'.res.nit := by
  obtain ⟨o, h, t⟩ := returns_iff (r := CMAES.minimizeSigma Concrete.env wild stableArgsort eighDiag 10 { evoArgs with maxiter := 2 } (.scalar (1 / 10)) junk0 0)
    (t := fun o => decide (o.1.res.status = -6) && decide (o.1.res.nit = 1)) (by decide +kernel)
  obtain ⟨o', h', t'⟩ := returns_iff (r := CMAES.minimizeSigma Concrete.env wild stableArgsort eighDiag 10 { evoArgs with maxiter := 2 } (.array [1 / 10]) junk0 0)
    (t := fun o => decide (o.1.res.status ≠ -6) && decide (o.1.res.nit = 2)) (by decide +kernel)
  rw [Bool.and_eq_true, decide_eq_true_eq, decide_eq_true_eq] at t t'
  exact ⟨o.1, o.2, o'.1, o'.2, h, h', t.1, t'.1, by rw [t.2, t'.2]; decide⟩

end Stochopy
