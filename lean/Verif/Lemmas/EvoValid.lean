import Verif.Lemmas.EvoTotal
import Verif.Spec.Evo

/-! Argument checks of `cmaes` and `vdcma`. -/

set_option linter.unusedSectionVars false

namespace Stochopy.Evo
open Spec
variable {K σ : Type} [Field K] [LinearOrder K] [IsStrictOrderedRing K] [NumFns K] [FloorRing K] {env : Env} {R : Rng σ K}
  {srt : Argsort K} {fuel : Nat} {g : σ} {a : Args K} {junk : Vec K a.ndim} {e : PyErr}

theorem badX0_iff : a.badX0 = false ↔ ∀ x, a.x0 = some x → x.shape = [a.bounds.len] := by
  unfold Args.badX0
  cases hx : a.x0 with
  | none => simp
  | some x =>
    simp only [Option.some.injEq, forall_eq', Bool.or_eq_false_iff, bne_eq_false_iff_eq]
    unfold NdArr.ndim
    constructor
    · rintro ⟨h1, h2⟩
      change x.shape.headD 0 = a.bounds.len at h2
      match hs : x.shape, h1 with
      | [y], _ => rw [hs] at h2; exact congrArg (fun y => [y]) h2
    · intro h
      refine ⟨by rw [h]; rfl, ?_⟩
      show x.shape.headD 0 = _
      rw [h]; rfl

theorem validate_ok_iff : a.validate = .ok () ↔ a.fn.isSome = true ∧ a.bounds.ndim = 2 ∧ a.badX0 = false ∧ 0 < a.sigma ∧
    (0 < a.muperc ∧ a.muperc ≤ 1) ∧ a.badCallback = false := by
  unfold Args.validate
  constructor
  · intro h
    split_ifs at h with h1 h2 h3 h4 h5 h6
    refine ⟨?_, by simpa using h2, by simpa using h3, not_le.1 h4, by simpa using h5, by simpa using h6⟩
    cases hf : a.fn with
    | none => rw [hf] at h1; exact absurd rfl h1
    | some f => rfl
  · rintro ⟨h1, h2, h3, h4, h5, h6⟩
    rw [if_neg (by cases hf : a.fn <;> simp_all), if_neg (by simpa using h2), if_neg (by simp [h3]), if_neg (not_le.2 h4),
      if_neg (by simpa using h5), if_neg (by simp [h6])]

theorem validate_error (h : a.validate = .error e) : MisuseEvo env a e := by
  unfold Args.validate at h
  split_ifs at h with h1 h2 h3 h4 h5 h6 <;> cases h
  · cases hf : a.fn with
    | none => exact hf
    | some f => rw [hf] at h1; cases h1
  · refine Or.inl fun hb => h2 (bounds_shape_iff.1 hb).1
  · refine Or.inr (Or.inl ?_)
    by_contra hc
    push Not at hc
    rw [badX0_iff.2 hc] at h3
    cases h3
  · exact Or.inr (Or.inr (Or.inl h4))
  · refine Or.inr (Or.inr (Or.inr (Or.inr (Or.inl ?_))))
    by_contra hc
    rw [badCallback_iff.2 hc] at h6
    cases h6
  · exact Or.inr (Or.inr (Or.inr (Or.inl h5)))

theorem consMap_error {c : Option String} (h : consMap c = .error e) : e = .keyError ∧ c ∉ [none, some "Penalize"] := by
  cases c with
  | none => cases h
  | some s =>
    change (if s = "Penalize" then .ok true else .error .keyError : Except PyErr Bool) = _ at h
    by_cases hs : s = "Penalize"
    · rw [if_pos hs] at h; cases h
    · rw [if_neg hs] at h; cases h; simp [hs]

theorem consMap_ok {c : Option String} {b : Bool} (h : consMap c = .ok b) :
    c ∈ [none, some "Penalize"] ∧ (b = true ↔ c = some "Penalize") := by
  cases c with
  | none => cases h; simp
  | some s =>
    change (if s = "Penalize" then .ok true else .error .keyError : Except PyErr Bool) = _ at h
    by_cases hs : s = "Penalize"
    · rw [if_pos hs] at h; cases h; simp [hs]
    · rw [if_neg hs] at h; cases h

theorem firstMean_error {g : σ} (h : a.firstMean R g = .error e) : a.x0 ≠ none ∧ ∃ j, a.lower j = a.upper j := by
  unfold Args.firstMean at h
  split at h
  · cases h
  · rename_i x hx
    rw [bind_error_iff] at h
    rcases h with h | ⟨u, -, h⟩
    · rw [need_error] at h
      push Not at h
      exact ⟨by rw [hx]; simp, h.1⟩
    · cases h

theorem nout_le' (hp : 0 < a.popsize) : a.cfg.nout ≤ a.p ↔ a.verbosity ≤ 1 := by
  have h : ((a.p : Nat) : Int) = a.popsize := by unfold CommonArgs.p; omega
  have hc : a.cfg.nout = ⌈a.verbosity * (a.popsize : K)⌉ := rfl
  rw [hc, h, Int.ceil_le]
  have hp' : (0 : K) < (a.popsize : K) := by exact_mod_cast hp
  constructor
  · intro h
    by_contra hv
    nlinarith
  · intro h
    nlinarith

theorem mu_eq (hp : 0 < a.popsize) (h1 : 1 ≤ a.muperc * (a.popsize : K)) :
    (a.mu : Int) = ⌊a.muperc * (a.popsize : K)⌋ := by
  have h0 : 0 ≤ a.muperc * (a.popsize : K) := by linarith
  have h2 : 1 ≤ ⌊a.muperc * (a.popsize : K)⌋ := Int.le_floor.2 (by simpa using h1)
  unfold Args.mu pyInt
  rw [if_pos h0, IntParts.floor_eq]
  omega

theorem mu_floor (hp : 0 < a.popsize) (h1 : 1 ≤ a.muperc * (a.popsize : K)) :
    (a.mu : K) ≤ a.muperc * (a.popsize : K) ∧ a.muperc * (a.popsize : K) < (a.mu : K) + 1 := by
  have h := mu_eq hp h1
  have h3 : ((a.mu : Int) : K) = ((⌊a.muperc * (a.popsize : K)⌋ : Int) : K) := by rw [h]
  rw [Int.cast_natCast] at h3
  rw [h3]
  exact ⟨Int.floor_le _, Int.lt_floor_add_one _⟩

/-- `1 ≤ mu ≤ popsize`. -/
theorem mu_range (hp : 0 < a.popsize) (h1 : 1 ≤ a.muperc * (a.popsize : K)) (hm : a.muperc ≤ 1) : 0 < a.mu ∧ a.mu ≤ a.p := by
  have hpos : (0 : K) < (a.popsize : K) := by exact_mod_cast hp
  have hi := mu_eq hp h1
  have h2 : 1 ≤ ⌊a.muperc * (a.popsize : K)⌋ := Int.le_floor.2 (by simpa using h1)
  have h3 : ⌊a.muperc * (a.popsize : K)⌋ ≤ a.popsize := by
    have : ((⌊a.muperc * (a.popsize : K)⌋ : Int) : K) ≤ (a.popsize : K) := by
      have := Int.floor_le (a.muperc * (a.popsize : K))
      nlinarith
    exact_mod_cast this
  unfold CommonArgs.p
  omega

theorem mu_bounds (h : Sizes a) (hm : a.muperc ≤ 1) : 0 < a.mu ∧ a.mu ≤ a.p := mu_range h.popsize h.parents hm

/-- How a call can fail, for any Gaussian model: by misuse, or in some part of the run. -/
theorem minimize_error {S : Type} {G : a.mu ≤ a.p → Gauss S K a.p a.ndim} {rng : S → σ} {s0 : Vec K a.ndim × σ → S} (he : env.Ok)
    (hS : Sizes a) (hf : 0 < fuel) (hfuel : a.maxiter ≤ fuel)
    (h : (do
      a.validate
      match a.fn with
      | none => .error .typeError
      | some fn =>
        optimizer env fn true a.workers a.backend fun obj => do
          a.unpackBounds
          let pen ← consMap a.constraints
          let m ← a.firstMean R (a.seeded R g)
          if h : 0 < a.ndim ∧ 0 < a.p ∧ 0 < a.mu ∧ a.mu ≤ a.p then
            run (a.par srt obj pen) (G h.2.2.2) a.cfg rng fuel (s0 m)
          else .error .unmodelled : Except PyErr (Output σ K a.p a.ndim)) = .error e) :
    MisuseEvo env a e ∨ ∃ fn obj pen m L, ∃ hmu : a.mu ≤ a.p, a.fn = some fn ∧ obj.Faithful fn ∧ a.validate = .ok () ∧
      consMap a.constraints = .ok pen ∧ a.firstMean R (a.seeded R g) = .ok m ∧
      Reach (a.par srt obj pen) (G hmu) a.cfg (s0 m) L ∧ ((L.it : Int) < a.maxiter ∨ L.it = 0) ∧ PartFails (a.par srt obj pen) (G hmu) L e := by
  rw [bind_error_iff] at h
  rcases h with h | ⟨u, hv, h⟩
  · exact Or.inl (validate_error h)
  obtain ⟨v1, v2, v3, v4, v5, v6⟩ := validate_ok_iff.1 hv
  cases hfn : a.fn with
  | none => rw [hfn] at v1; cases v1
  | some fn =>
    rw [hfn] at h
    dsimp only at h
    rcases wrapper_cases he h with ⟨rfl, -, hb, hm⟩ | ⟨obj, hobj, h⟩
    · exact Or.inl ⟨hb, hm⟩
    rw [bind_error_iff] at h
    rcases h with h | ⟨u1, -, h⟩
    · unfold CommonArgs.unpackBounds at h
      split_ifs at h with hd
      cases h
      exact Or.inl (Or.inl fun hb => hd (bounds_shape_iff.1 hb).2)
    rw [bind_error_iff] at h
    rcases h with h | ⟨pen, hpen, h⟩
    · obtain ⟨rfl, hc⟩ := consMap_error h
      exact Or.inl hc
    rw [bind_error_iff] at h
    rcases h with h | ⟨m, hm, h⟩
    · obtain ⟨hx, j, hj⟩ := firstMean_error h
      exact absurd hj (hS.width hx j)
    have hp : 0 < a.p := by have := hS.popsize; unfold CommonArgs.p; omega
    rw [dif_pos ⟨hS.dim, hp, mu_bounds hS v5.2⟩] at h
    rcases run_error hp hf hfuel h with ⟨L, hL, hi, hF⟩ | ⟨rfl, hm0⟩ | ⟨rfl, hm0⟩ | ⟨rfl, hr, hn, hp1⟩
    · exact Or.inr ⟨fn, obj, pen, m, L, (mu_bounds hS v5.2).2, rfl, hobj, hv, hpen, hm, hL, hi, hF⟩
    · exact Or.inl hm0
    · exact Or.inl (Or.inr (Or.inr (Or.inr (Or.inr (Or.inr (Or.inl hm0))))))
    · refine Or.inl (Or.inr (Or.inr (Or.inr (Or.inr (Or.inr (Or.inr ⟨hr, ?_, ?_⟩))))))
      · rw [← not_le, ← nout_le' hS.popsize, not_le]; exact hn
      · intro h1; apply hp1; unfold CommonArgs.p; omega

theorem _root_.Stochopy.Spec.ValidEvo.not_misuse (hv : ValidEvo env a) : ¬ MisuseEvo env a e := by
  intro h
  cases e with
  | typeError => have := hv.objective; rw [show a.fn = none from h] at this; cases this
  | valueError =>
    rcases h with h | ⟨x, h, h'⟩ | h | h | h | h | ⟨h, h', h''⟩
    · exact h hv.bounds
    · exact h' (hv.x0 x h)
    · exact absurd hv.sigma (not_lt.2 h)
    · exact h hv.muperc
    · exact hv.callback h
    · have := hv.maxiter; omega
    · rcases hv.history h with h1 | h1
      · exact absurd h' (not_lt.2 h1)
      · exact h'' h1
  | keyError => exact h hv.constraints
  | indexError => have := hv.maxiter; have h : a.maxiter = 0 := h; omega
  | importError => have := hv.mpi h.1; rw [h.2] at this; cases this
  | recursionError => exact h
  | attributeError => exact h
  | outOfFuel => exact h
  | unmodelled => exact h

/-- A call that returns was valid. -/
theorem valid_of_ok {S : Type} {G : a.mu ≤ a.p → Gauss S K a.p a.ndim} {rng : S → σ} {s0 : Vec K a.ndim × σ → S}
    {o : Output σ K a.p a.ndim}
    (h : (do
      a.validate
      match a.fn with
      | none => .error .typeError
      | some fn =>
        optimizer env fn true a.workers a.backend fun obj => do
          a.unpackBounds
          let pen ← consMap a.constraints
          let m ← a.firstMean R (a.seeded R g)
          if h : 0 < a.ndim ∧ 0 < a.p ∧ 0 < a.mu ∧ a.mu ≤ a.p then
            run (a.par srt obj pen) (G h.2.2.2) a.cfg rng fuel (s0 m)
          else .error .unmodelled : Except PyErr (Output σ K a.p a.ndim)) = .ok o) : ValidEvo env a ∧ Sizes a := by
  rw [bind_ok_iff] at h
  obtain ⟨u, hv, h⟩ := h
  obtain ⟨v1, v2, v3, v4, v5, v6⟩ := validate_ok_iff.1 hv
  cases hfn : a.fn with
  | none => rw [hfn] at v1; cases v1
  | some fn =>
    rw [hfn] at h
    dsimp only at h
    have hmpi : a.backend = some "mpi" → env.mpi4py = true := by
      intro hb
      rw [hb] at h
      exact optimizer_mpi h
    obtain ⟨obj, h⟩ := optimizer_ok' h
    rw [bind_ok_iff] at h
    obtain ⟨u1, hb, h⟩ := h
    rw [bind_ok_iff] at h
    obtain ⟨pen, hpen, h⟩ := h
    rw [bind_ok_iff] at h
    obtain ⟨m, hm, h⟩ := h
    by_cases hd : 0 < a.ndim ∧ 0 < a.p ∧ 0 < a.mu ∧ a.mu ≤ a.p
    · rw [dif_pos hd] at h
      have hpop : 0 < a.popsize := by have := hd.2.1; unfold CommonArgs.p at this; omega
      obtain ⟨c1, c2⟩ := run_ok_cfg h
      have hdim : a.bounds.dim1 = 2 := by
        unfold CommonArgs.unpackBounds at hb
        split_ifs at hb with hd
        exact hd
      refine ⟨⟨by rw [hfn]; rfl, bounds_shape_iff.2 ⟨v2, hdim⟩, badX0_iff.1 v3, v4, v5, badCallback_iff.1 v6, (consMap_ok hpen).1, c1,
        fun hr => ?_, hmpi⟩, ⟨hd.1, hpop, ?_, ?_⟩⟩
      · rcases c2 hr with h1 | h1
        · exact Or.inl ((nout_le' hpop).1 h1)
        · right; unfold CommonArgs.p at h1; omega
      · have hmu := hd.2.2.1
        have h0 : 0 ≤ a.muperc * (a.popsize : K) := mul_nonneg v5.1.le (by exact_mod_cast hpop.le)
        unfold Args.mu pyInt at hmu
        rw [if_pos h0, IntParts.floor_eq] at hmu
        have : (1 : Int) ≤ ⌊a.muperc * (a.popsize : K)⌋ := by omega
        simpa using Int.le_floor.1 this
      · intro hx j
        unfold Args.firstMean at hm
        split at hm
        · rename_i hx'; exact absurd hx' hx
        · rw [bind_ok_iff] at hm
          obtain ⟨u, hm, -⟩ := hm
          rw [need_ok] at hm
          exact hm j
    · rw [dif_neg hd] at h; cases h

end Stochopy.Evo
