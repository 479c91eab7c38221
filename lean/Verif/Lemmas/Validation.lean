import Verif.Lemmas.Total
import Verif.Spec.Validation

/-! Validation: from the models' checks to the vocabulary of `Spec/Validation.lean`. -/

set_option linter.unusedSectionVars false

namespace Stochopy
open Spec
section
variable {K σ : Type} [AddZeroClass K] [One K] [Sub K] [Mul K] [Div K] [Neg K] [NatCast K] [IntCast K] [Pow K ℕ] [ArrayOps K] [LinearOrder K] {p n : Nat}

theorem shape2 {A : Type} {a : NdArr A} (h : a.ndim = 2) : a.shape = [a.len, a.dim1] := by
  unfold NdArr.ndim at h
  unfold NdArr.len NdArr.dim1
  match hs : a.shape, h with
  | [x, y], _ => rfl

theorem bounds_shape_iff {a : CommonArgs K} :
    a.bounds.shape = [a.bounds.len, 2] ↔ a.bounds.ndim = 2 ∧ a.bounds.dim1 = 2 := by
  constructor
  · intro h
    unfold NdArr.ndim NdArr.dim1
    rw [h]; exact ⟨rfl, rfl⟩
  · rintro ⟨h1, h2⟩
    rw [shape2 h1, h2]

theorem x0_shape_iff {a : CommonArgs K} (hp : 2 ≤ a.popsize) :
    (∀ x, a.x0 = some x → x.shape = [a.popsize.toNat, a.bounds.len]) ↔ a.badX0Shape = false ∧ a.badX0Len = false := by
  unfold CommonArgs.badX0Shape CommonArgs.badX0Len
  cases hx : a.x0 with
  | none => simp
  | some x =>
    simp only [Option.some.injEq, forall_eq', Bool.or_eq_false_iff, bne_eq_false_iff_eq]
    constructor
    · intro h
      unfold NdArr.ndim NdArr.dim1 NdArr.len
      rw [h]
      refine ⟨⟨rfl, rfl⟩, ?_⟩
      show ((a.popsize.toNat : Nat) : Int) = _
      omega
    · rintro ⟨⟨h1, h2⟩, h3⟩
      rw [shape2 h1, h2]
      congr 1
      omega

theorem badCallback_iff {a : CommonArgs K} : a.badCallback = false ↔ a.callback ≠ some false := by
  unfold CommonArgs.badCallback
  exact beq_eq_false_iff_ne

end

variable {K σ : Type} [Field K] [LinearOrder K] {p n : Nat}

theorem nout_le [IsStrictOrderedRing K] [FloorRing K] {a : CommonArgs K} (hp : 2 ≤ a.popsize) :
    a.cfg.nout ≤ a.p ↔ a.verbosity ≤ 1 := by
  have h : ((a.p : Nat) : Int) = a.popsize := by unfold CommonArgs.p; omega
  have hc : a.cfg.nout = ⌈a.verbosity * (a.popsize : K)⌉ := rfl
  rw [hc, h, Int.ceil_le]
  have hp' : (0 : K) < (a.popsize : K) := by exact_mod_cast (by omega : (0 : Int) < a.popsize)
  constructor
  · intro h1
    by_contra h2
    have := mul_lt_mul_of_pos_right (not_le.1 h2) hp'
    rw [one_mul] at this
    exact absurd h1 (not_le.2 this)
  · intro h1
    have := mul_le_mul_of_nonneg_right h1 hp'.le
    rwa [one_mul] at this

theorem recErr_misuse [IsStrictOrderedRing K] [FloorRing K] {env : Env} {a : CommonArgs K} (hp : 2 ≤ a.popsize) {e : PyErr}
    (h : RecErr a.cfg a.p e) : MisuseCommon env a e := by
  obtain ⟨h1, ⟨rfl, h2 | h2⟩ | ⟨rfl, h2⟩⟩ := h
  · exact Or.inr (Or.inr (Or.inr (Or.inr ⟨h1, Or.inl h2⟩)))
  · refine Or.inr (Or.inr (Or.inr (Or.inr ⟨h1, Or.inr ?_⟩)))
    rw [← not_le, ← nout_le hp, not_le]
    exact h2
  · exact ⟨h1, h2⟩

/-! ## The decorator -/

theorem effBackend_mpi {b : Option String} (h : effBackend b = "mpi") : b = some "mpi" := by
  unfold effBackend at h
  cases b with
  | none => exact absurd h (by decide)
  | some b =>
    dsimp only at h
    split_ifs at h
    · exact absurd h (by decide)
    · rw [h]

theorem wrapper_cases {env : Env} (he : env.Ok) {fn : Vec K n → Val K} {sync : Bool} {b : Option String} {w : Int}
    {α : Type} {k : Obj K n → Except PyErr α} {e : PyErr} (h : optimizer env fn sync w b k = .error e) :
    (e = .importError ∧ sync = true ∧ b = some "mpi" ∧ env.mpi4py = false) ∨
      ∃ obj, obj.Faithful fn ∧ k obj = .error e := by
  unfold optimizer at h
  dsimp only at h
  generalize hb : effBackend b = B at h
  by_cases h1 : (prefer B && !(w == 0 || w == 1)) = true
  · rw [if_pos h1, bind_error_iff] at h
    rcases h with h | ⟨obj, hobj, h⟩
    · exfalso
      unfold wrapper at h
      rw [Bool.and_eq_true] at h1
      split_ifs at h <;> simp_all
    · exact Or.inr ⟨obj, wrapper_faithful he hobj, h⟩
  · rw [if_neg h1, bind_error_iff] at h
    rcases h with h | ⟨obj, hobj, h⟩
    · unfold wrapper at h
      split_ifs at h with h2 h3 h4 h5
      refine Or.inl ⟨by simpa using h.symm, h2, ?_, by simpa using h5⟩
      rw [beq_iff_eq] at h3
      exact effBackend_mpi (hb.trans h3)
    · exact Or.inr ⟨obj, wrapper_faithful he hobj, h⟩

theorem optimizer_ok' {α : Type} {env : Env} {fn : Vec K n → Val K} {sync : Bool} {w : Int}
    {b : Option String} {k : Obj K n → Except PyErr α} {r : α} (h : optimizer env fn sync w b k = .ok r) :
    ∃ obj, k obj = .ok r := by
  unfold optimizer at h
  dsimp only at h
  split_ifs at h <;> rw [bind_ok_iff] at h <;> obtain ⟨obj, _, h2⟩ := h <;> exact ⟨obj, h2⟩

theorem optimizer_mpi {env : Env} {fn : Vec K n → Val K} {w : Int} {α : Type} {k : Obj K n → Except PyErr α} {r : α}
    (h : optimizer env fn true w (some "mpi") k = .ok r) : env.mpi4py = true := by
  unfold optimizer at h
  dsimp only at h
  have h1 : effBackend (some "mpi") = "mpi" := by decide
  rw [h1] at h
  have h2 : prefer "mpi" = false := by decide
  rw [h2] at h
  simp only [Bool.false_and, Bool.false_eq_true, if_false] at h
  rw [bind_ok_iff] at h
  obtain ⟨obj, h, _⟩ := h
  unfold wrapper at h
  simp only [h2] at h
  by_contra hm
  simp [hm] at h

/-- If the optimizer itself raises whatever the objective is, so does the decorated one. -/
theorem optimizer_const {env : Env} {fn fn' : Vec K n → Val K} {sync : Bool} {w : Int} {b : Option String} {α : Type}
    {k k' : Obj K n → Except PyErr α} {e : PyErr} (h : ∀ obj, k obj = .error e) (h' : ∀ obj, k' obj = .error e) :
    optimizer env fn sync w b k = optimizer env fn' sync w b k' ∧ ∃ e', optimizer env fn sync w b k = .error e' := by
  have hw : ∀ B par, ((wrapper env fn sync B par >>= k) = (wrapper env fn' sync B par >>= k')) ∧
      ∃ e', (wrapper env fn sync B par >>= k) = .error e' := by
    intro B par
    unfold wrapper
    split_ifs <;> simp [h, h']
  unfold optimizer
  dsimp only
  split_ifs <;> exact hw _ _

section
variable [IsStrictOrderedRing K] [FloorRing K]

/-! ## DE -/

theorem DE.strategyMap_names {name : String} :
    (∃ s : DE.Strategy K p n, DE.strategyMap name = .ok s) ↔ name ∈ ["rand1bin", "rand2bin", "best1bin", "best2bin"] := by
  unfold DE.strategyMap
  simp only [List.mem_cons, List.not_mem_nil, or_false]
  split_ifs <;> simp_all

theorem DE.strategyMap_error {name : String} {e : PyErr} (h : DE.strategyMap (K := K) (p := p) (n := n) name = .error e) :
    e = .keyError ∧ name ∉ ["rand1bin", "rand2bin", "best1bin", "best2bin"] := by
  have h1 : ¬ ∃ s : DE.Strategy K p n, DE.strategyMap name = .ok s := by
    rintro ⟨s, hs⟩; rw [hs] at h; cases h
  refine ⟨?_, fun hm => h1 (DE.strategyMap_names.2 hm)⟩
  unfold DE.strategyMap at h
  split_ifs at h; cases h; rfl

theorem DE.consMap_names {c : Option String} : (∃ s, DE.consMap c = .ok s) ↔ c ∈ [none, some "Random"] := by
  unfold DE.consMap
  cases c with
  | none => simp
  | some s => by_cases h : s = "Random" <;> simp [h]

theorem DE.consMap_error {c : Option String} {e : PyErr} (h : DE.consMap c = .error e) :
    e = .keyError ∧ c ∉ [none, some "Random"] := by
  unfold DE.consMap at h
  cases c with
  | none => cases h
  | some s =>
    by_cases hs : s = "Random"
    · simp [hs] at h
    · simp only [hs, if_false, Except.error.injEq] at h; simp [hs, h]

theorem DE.strat_error {name : String} {strat : DE.Strategy K p n} (hs : DE.strategyMap name = .ok strat)
    {d : Fin (p - 1) → Fin p} {F : K} {X : Pop K p n} {gb : Vec K n} {e : PyErr} (h : strat d F X gb = .error e) :
    e = .indexError ∧ p < needed name := by
  have hd : ∀ k e, DE.donor d k = .error e → e = .indexError ∧ p ≤ k + 1 := by
    intro k e h
    unfold DE.donor at h
    split_ifs at h
    exact ⟨by simpa using h.symm, by omega⟩
  have ho : ∀ k a, DE.donor d k = .ok a → k + 1 < p := by
    intro k a h; obtain ⟨hk, _⟩ := DE.donor_ok h; omega
  unfold DE.strategyMap at hs
  unfold needed
  split_ifs at hs with h1 h2 h3 h4 <;> simp only [Except.ok.injEq] at hs <;> subst hs
  · rw [if_pos h1]
    simp only [DE.rand1bin, bind_error_iff] at h
    rcases h with h | ⟨_, _, h | ⟨_, _, h | ⟨_, _, h⟩⟩⟩
    all_goals first | (have := hd _ _ h; exact ⟨this.1, by omega⟩) | cases h
  · rw [if_neg h1, if_pos h2]
    simp only [DE.rand2bin, bind_error_iff] at h
    rcases h with h | ⟨_, _, h | ⟨_, _, h | ⟨_, _, h | ⟨_, _, h | ⟨_, _, h⟩⟩⟩⟩⟩
    all_goals first | (have := hd _ _ h; exact ⟨this.1, by omega⟩) | cases h
  · rw [if_neg h1, if_neg h2, if_pos h3]
    simp only [DE.best1bin, bind_error_iff] at h
    rcases h with h | ⟨_, _, h | ⟨_, _, h⟩⟩
    all_goals first | (have := hd _ _ h; exact ⟨this.1, by omega⟩) | cases h
  · rw [if_neg h1, if_neg h2, if_neg h3]
    simp only [DE.best2bin, bind_error_iff] at h
    rcases h with h | ⟨_, _, h | ⟨_, _, h | ⟨_, _, h | ⟨_, _, h⟩⟩⟩⟩
    all_goals first | (have := hd _ _ h; exact ⟨this.1, by omega⟩) | cases h

theorem DE.strat_size {name : String} {strat : DE.Strategy K p n} (hs : DE.strategyMap name = .ok strat)
    {d : Fin (p - 1) → Fin p} {F : K} {X : Pop K p n} {gb v : Vec K n} (h : strat d F X gb = .ok v) :
    needed name ≤ p := by
  have ho : ∀ k a, DE.donor d k = .ok a → k + 1 < p := by
    intro k a h; obtain ⟨hk, _⟩ := DE.donor_ok h; omega
  unfold DE.strategyMap at hs
  unfold needed
  split_ifs at hs with h1 h2 h3 h4 <;> simp only [Except.ok.injEq] at hs <;> subst hs
  · rw [if_pos h1]
    simp only [DE.rand1bin, bind_ok_iff] at h
    obtain ⟨_, _, _, _, _, h, _⟩ := h
    have := ho _ _ h; omega
  · rw [if_neg h1, if_pos h2]
    simp only [DE.rand2bin, bind_ok_iff] at h
    obtain ⟨_, _, _, _, _, _, _, _, _, h, _⟩ := h
    have := ho _ _ h; omega
  · rw [if_neg h1, if_neg h2, if_pos h3]
    simp only [DE.best1bin, bind_ok_iff] at h
    obtain ⟨_, _, _, h, _⟩ := h
    have := ho _ _ h; omega
  · rw [if_neg h1, if_neg h2, if_neg h3]
    simp only [DE.best2bin, bind_ok_iff] at h
    obtain ⟨_, _, _, _, _, _, _, h, _⟩ := h
    have := ho _ _ h; omega

theorem checkDim_error {e : PyErr} (h : DE.checkDim n = .error e) : e = .valueError ∧ n = 0 := by
  unfold DE.checkDim at h
  split_ifs at h with h1
  exact ⟨by simpa using h.symm, h1⟩

theorem foldlM_error {β γ ε : Type} {e : ε} {f : β → γ → Except ε β} (l : List γ) : ∀ (b : β), l.foldlM f b = .error e →
    ∃ b c, f b c = .error e := by
  induction l with
  | nil => intro b h; simp [pure, Except.pure] at h
  | cons c l ih =>
    intro b h
    rw [List.foldlM_cons, bind_error_iff] at h
    rcases h with h | ⟨b1, _, h2⟩
    · exact ⟨_, _, h⟩
    · exact ih _ h2

/-- A generation of DE only raises when there are too few individuals or no variables. -/
theorem DE.step_error {P : DE.Par σ K p n} {sync : Bool} {name : String} (hs : DE.strategyMap name = .ok P.strat)
    (hp : 0 < p) {it : Nat} {s : DE.State σ K p n} {e : PyErr} (h : (DE.alg P sync).step it s = .error e) :
    (e = .indexError ∧ p < needed name) ∨ (e = .valueError ∧ n = 0) := by
  rw [DE.alg_step] at h
  cases sync with
  | true =>
    simp only [if_true] at h
    unfold DE.stepSync at h
    rw [bind_error_iff] at h
    rcases h with h | ⟨_, _, h⟩
    · unfold DE.candSync at h
      dsimp only at h
      rw [bind_error_iff] at h
      rcases h with h | ⟨_, _, h⟩
      · obtain ⟨i, hi⟩ := seqFin_error h
        exact Or.inl (DE.strat_error hs hi)
      · rw [bind_error_iff] at h
        rcases h with h | ⟨_, _, h⟩
        · exact Or.inr (checkDim_error h)
        · cases h
    · rw [bind_error_iff] at h
      rcases h with h | ⟨_, _, h⟩
      · exact absurd h (selectionSync_ne_error hp)
      · cases h
  | false =>
    simp only [Bool.false_eq_true, if_false] at h
    unfold DE.stepAsync at h
    dsimp only at h
    rw [bind_error_iff] at h
    rcases h with h | ⟨_, _, h⟩
    · obtain ⟨acc, i, h⟩ := foldlM_error _ _ h
      unfold DE.rowAsync at h
      dsimp only at h
      rw [bind_error_iff] at h
      rcases h with h | ⟨_, _, h⟩
      · unfold DE.candAsync at h
        dsimp only at h
        rw [bind_error_iff] at h
        rcases h with h | ⟨_, _, h⟩
        · exact Or.inl (DE.strat_error hs h)
        · rw [bind_error_iff] at h
          rcases h with h | ⟨_, _, h⟩
          · exact Or.inr (checkDim_error h)
          · cases h
      · cases h
    · cases h

theorem DE.step_size {P : DE.Par σ K p n} {sync : Bool} {name : String} (hs : DE.strategyMap name = .ok P.strat)
    (hp : 0 < p) {it : Nat} {s : DE.State σ K p n} {r} (h : (DE.alg P sync).step it s = .ok r) :
    needed name ≤ p ∧ 0 < n := by
  have hcd : ∀ u, DE.checkDim n = .ok u → 0 < n := by
    intro u h
    unfold DE.checkDim at h
    split_ifs at h
    omega
  rw [DE.alg_step] at h
  cases sync with
  | true =>
    simp only [if_true] at h
    unfold DE.stepSync at h
    rw [bind_ok_iff] at h
    obtain ⟨U, h, _⟩ := h
    unfold DE.candSync at h
    dsimp only at h
    rw [bind_ok_iff] at h
    obtain ⟨V, hV, h⟩ := h
    rw [bind_ok_iff] at h
    obtain ⟨_, hn, _⟩ := h
    exact ⟨DE.strat_size hs (seqFin_ok_iff.1 hV ⟨0, hp⟩), hcd _ hn⟩
  | false =>
    simp only [Bool.false_eq_true, if_false] at h
    unfold DE.stepAsync at h
    dsimp only at h
    rw [bind_ok_iff] at h
    obtain ⟨r1, h, _⟩ := h
    obtain ⟨p, rfl⟩ : ∃ q, p = q + 1 := ⟨p - 1, by omega⟩
    rw [List.finRange_succ, List.foldlM_cons, bind_ok_iff] at h
    obtain ⟨r2, h, _⟩ := h
    unfold DE.rowAsync at h
    dsimp only at h
    rw [bind_ok_iff] at h
    obtain ⟨U, h, _⟩ := h
    unfold DE.candAsync at h
    dsimp only at h
    rw [bind_ok_iff] at h
    obtain ⟨V, hV, h⟩ := h
    rw [bind_ok_iff] at h
    obtain ⟨_, hn, _⟩ := h
    exact ⟨DE.strat_size hs hV, hcd _ hn⟩


theorem DE.validate_error {env : Env} {a : DE.Args K} {e : PyErr} (h : DE.validate a = .error e) :
    MisuseDE env a e ∧ (a.fn.isSome → DocumentedDE a) := by
  unfold DE.validate at h
  by_cases h1 : a.fn.isNone = true
  · rw [if_pos h1] at h; cases h
    rw [Option.isNone_iff_eq_none] at h1
    exact ⟨Or.inl h1, fun h => by rw [h1] at h; cases h⟩
  rw [if_neg h1] at h
  by_cases h2 : a.bounds.ndim ≠ 2
  · rw [if_pos h2] at h; cases h
    have : a.bounds.shape ≠ [a.bounds.len, 2] := fun hs => h2 (bounds_shape_iff.1 hs).1
    exact ⟨Or.inl (Or.inl this), fun _ => Or.inl this⟩
  rw [if_neg h2] at h
  by_cases h4 : a.popsize < 2
  · have : e = .valueError := by
      split_ifs at h <;> cases h <;> rfl
    subst this
    exact ⟨Or.inl (Or.inr (Or.inr (Or.inl h4))), fun _ => Or.inr (Or.inr (Or.inl h4))⟩
  have hx : ¬ (a.badX0Shape = false ∧ a.badX0Len = false) →
      ∃ x, a.x0 = some x ∧ x.shape ≠ [a.popsize.toNat, a.bounds.len] := by
    intro hb
    rw [← x0_shape_iff (by omega)] at hb
    push Not at hb
    exact hb
  by_cases h3 : a.badX0Shape = true
  · rw [if_pos h3] at h; cases h
    have := hx (by simp [h3])
    exact ⟨Or.inl (Or.inr (Or.inl this)), fun _ => Or.inr (Or.inl this)⟩
  rw [if_neg h3, if_neg h4] at h
  by_cases h5 : a.badX0Len = true
  · rw [if_pos h5] at h; cases h
    have := hx (by simp [h5])
    exact ⟨Or.inl (Or.inr (Or.inl this)), fun _ => Or.inr (Or.inl this)⟩
  rw [if_neg h5] at h
  by_cases h6 : ¬ (0 ≤ a.mutation ∧ a.mutation ≤ 2)
  · rw [if_pos h6] at h; cases h
    exact ⟨Or.inr (Or.inl ⟨rfl, Or.inl h6⟩), fun _ => by unfold DocumentedDE; tauto⟩
  rw [if_neg h6] at h
  by_cases h7 : ¬ (0 ≤ a.recombination ∧ a.recombination ≤ 1)
  · rw [if_pos h7] at h; cases h
    exact ⟨Or.inr (Or.inl ⟨rfl, Or.inr (Or.inl h7)⟩), fun _ => by unfold DocumentedDE; tauto⟩
  rw [if_neg h7] at h
  by_cases h8 : ¬ (a.updating = "immediate" ∨ a.updating = "deferred")
  · rw [if_pos h8] at h; cases h
    have : a.updating ∉ ["immediate", "deferred"] := by simpa using h8
    exact ⟨Or.inr (Or.inl ⟨rfl, Or.inr (Or.inr (Or.inl this))⟩), fun _ => by unfold DocumentedDE; tauto⟩
  rw [if_neg h8] at h
  cases hs : DE.strategyMap (K := K) (p := a.p) (n := a.ndim) a.strategy with
  | error e' =>
    rw [hs] at h
    dsimp only at h
    cases h
    obtain ⟨rfl, h9⟩ := DE.strategyMap_error hs
    exact ⟨Or.inr (Or.inr (Or.inl ⟨rfl, Or.inl h9⟩)), fun _ => by unfold DocumentedDE; tauto⟩
  | ok s =>
    rw [hs] at h
    dsimp only at h
    by_cases h9 : a.badCallback = true
    · rw [if_pos h9] at h; cases h
      have : a.callback = some false := by
        by_contra hc; rw [badCallback_iff.2 hc] at h9; cases h9
      exact ⟨Or.inl (Or.inr (Or.inr (Or.inr (Or.inl this)))), fun _ => by unfold DocumentedDE; tauto⟩
    · rw [if_neg h9] at h; cases h

theorem DE.validate_ok_doc {a : DE.Args K} {strat} (h : DE.validate a = .ok strat) (hd : DocumentedDE a) :
    a.bounds.dim1 ≠ 2 ∨ a.constraints ∉ [none, some "Random"] := by
  obtain ⟨h1, h2, h3, h4, h5, h6, h7, h8, h9, h10⟩ := DE.validate_ok h
  have hx := (x0_shape_iff h4).2 ⟨h3, h5⟩
  have hc := badCallback_iff.1 h10
  have hs := DE.strategyMap_names.1 ⟨_, h9⟩
  have hu : a.updating ∈ ["immediate", "deferred"] := by simpa using h8
  rcases hd with hd | ⟨x, hx1, hx2⟩ | hd | hd | hd | hd | hd | hd | hd
  · left; intro hb; exact hd (bounds_shape_iff.2 ⟨h2, hb⟩)
  · exact absurd (hx x hx1) hx2
  · omega
  · exact absurd hd hc
  · exact absurd h6 hd
  · exact absurd h7 hd
  · exact absurd hu hd
  · exact absurd hs hd
  · exact Or.inr hd

/-- Which exception a call of DE can end with. -/
theorem DE.minimize_error {env : Env} (he : env.Ok) {R : Rng σ K} {fuel : Nat} {a : DE.Args K} {g : σ} (hf : 1 ≤ fuel)
    (hf' : a.maxiter ≤ 1 + (fuel : Int)) {e : PyErr} (h : DE.minimize env R fuel a g = .error e) : MisuseDE env a e := by
  unfold DE.minimize at h
  rw [bind_error_iff] at h
  rcases h with h | ⟨strat, hv, h⟩
  · exact (DE.validate_error h).1
  obtain ⟨h1, h2, h3, h4, h5, h6, h7, h8, h9, h10⟩ := DE.validate_ok hv
  have hp : 0 < a.p := by unfold CommonArgs.p; omega
  cases hfn : a.fn with
  | none => rw [hfn] at h1; cases h1
  | some fn =>
    rw [hfn] at h
    dsimp only at h
    rcases wrapper_cases he h with ⟨rfl, _, hb, hm⟩ | ⟨obj, hobj, h⟩
    · exact Or.inl ⟨hb, hm⟩
    rw [bind_error_iff] at h
    rcases h with h | ⟨_, _, h⟩
    · unfold CommonArgs.unpackBounds at h
      split_ifs at h with hd
      cases h
      exact Or.inl (Or.inl fun hs => hd (bounds_shape_iff.1 hs).2)
    rw [bind_error_iff] at h
    rcases h with h | ⟨cons, _, h⟩
    · obtain ⟨rfl, hc⟩ := DE.consMap_error h
      exact Or.inr (Or.inr (Or.inl ⟨rfl, Or.inr hc⟩))
    unfold DE.de at h
    rw [bind_error_iff] at h
    rcases h with h | ⟨s0, _, h⟩
    · unfold DE.init at h
      dsimp only at h
      rw [bind_error_iff] at h
      rcases h with h | ⟨_, _, h⟩
      · exact absurd h (argmin_ne_error hp _)
      · cases h
    rw [bind_error_iff] at h
    rcases h with h | ⟨_, _, h⟩
    · have hstr := DE.strategyMap_ne_outOfFuel h9
      rcases run_error (DE.laws a.sync hstr) rfl hp (fun _ => True) trivial (fun _ _ _ _ _ _ => trivial) (fun _ _ _ => trivial)
        hf hf' h with hr | ⟨it, s, _, hs⟩
      · exact Or.inl (recErr_misuse h4 hr)
      · rcases DE.step_error (name := a.strategy) h9 hp hs with ⟨rfl, hlt⟩ | ⟨rfl, hn⟩
        · exact Or.inr (Or.inr (Or.inr ⟨rfl, by unfold CommonArgs.p at hlt; omega⟩))
        · exact Or.inr (Or.inl ⟨rfl, Or.inr (Or.inr (Or.inr hn))⟩)
    · cases h


theorem DE.minimize_valid {env : Env} {R : Rng σ K} {fuel : Nat} {a : DE.Args K} {g : σ}
    {o} (h : DE.minimize env R fuel a g = .ok o) : ValidDE env a := by
  unfold DE.minimize at h
  rw [bind_ok_iff] at h
  obtain ⟨strat, hv, h⟩ := h
  obtain ⟨h1, h2, h3, h4, h5, h6, h7, h8, h9, h10⟩ := DE.validate_ok hv
  have hp : 0 < a.p := by unfold CommonArgs.p; omega
  cases hfn : a.fn with
  | none => rw [hfn] at h1; cases h1
  | some fn =>
    rw [hfn] at h
    dsimp only at h
    have hmpi : a.backend = some "mpi" → env.mpi4py = true := by
      intro hb
      have hsync : a.sync = true := by unfold DE.Args.sync; simp [hb]
      rw [hb, hsync] at h
      exact optimizer_mpi h
    obtain ⟨obj, h⟩ := optimizer_ok' h
    rw [bind_ok_iff] at h
    obtain ⟨_, hd, h⟩ := h
    have hd' : a.bounds.dim1 = 2 := by
      unfold CommonArgs.unpackBounds at hd
      by_contra hne
      rw [if_neg hne] at hd; cases hd
    rw [bind_ok_iff] at h
    obtain ⟨cons, hcons, h⟩ := h
    unfold DE.de at h
    rw [bind_ok_iff] at h
    obtain ⟨s0, _, h⟩ := h
    rw [bind_ok_iff] at h
    obtain ⟨r, hrun, _⟩ := h
    obtain ⟨hrec, s1, hs1⟩ := run_ok_facts hrun
    obtain ⟨hsz, hn⟩ := DE.step_size (name := a.strategy) h9 hp hs1
    exact
      { objective := by rw [hfn]; rfl
        bounds := bounds_shape_iff.2 ⟨h2, hd'⟩
        x0 := (x0_shape_iff h4).2 ⟨h3, h5⟩
        popsize := h4
        callback := badCallback_iff.1 h10
        history := fun hr => ⟨(hrec hr).1, (nout_le h4).1 (hrec hr).2⟩
        mpi := hmpi
        mutation := h6
        recombination := h7
        updating := by simpa using h8
        strategy := DE.strategyMap_names.1 ⟨_, h9⟩
        constraints := DE.consMap_names.1 ⟨_, hcons⟩
        size := by unfold CommonArgs.p at hsz; omega
        dim := hn }

theorem Spec.ValidCommon.not_misuse {env : Env} {a : CommonArgs K} (h : ValidCommon env a) {e : PyErr} :
    ¬ MisuseCommon env a e := by
  intro hm
  cases e with
  | typeError => have := h.objective; unfold MisuseCommon at hm; rw [hm] at this; cases this
  | valueError =>
    rcases hm with hm | ⟨x, hx, hm⟩ | hm | hm | ⟨hr, hm | hm⟩
    · exact hm h.bounds
    · exact hm (h.x0 x hx)
    · have := h.popsize; omega
    · exact h.callback hm
    · have := (h.history hr).1; omega
    · exact absurd (h.history hr).2 (not_le.2 hm)
  | indexError => have := (h.history hm.1).1; have := hm.2; omega
  | importError => have := h.mpi hm.1; rw [hm.2] at this; cases this
  | keyError => exact hm
  | recursionError => exact hm
  | attributeError => exact hm
  | outOfFuel => exact hm
  | unmodelled => exact hm

theorem Spec.ValidDE.not_misuse {env : Env} {a : DE.Args K} (h : ValidDE env a) {e : PyErr} : ¬ MisuseDE env a e := by
  rintro (hm | ⟨_, hm | hm | hm | hm⟩ | ⟨_, hm | hm⟩ | ⟨_, hm⟩)
  · exact h.toValidCommon.not_misuse hm
  · exact hm h.mutation
  · exact hm h.recombination
  · exact hm h.updating
  · have := h.dim; omega
  · exact hm h.strategy
  · exact hm h.constraints
  · have := h.size; omega

/-! ## CPSO -/

theorem CPSO.consMap_names {c : Option String} : (∃ s, CPSO.consMap c = .ok s) ↔ c ∈ [none, some "Shrink"] := by
  unfold CPSO.consMap
  cases c with
  | none => simp
  | some s => by_cases h : s = "Shrink" <;> simp [h]

theorem CPSO.consMap_error {c : Option String} {e : PyErr} (h : CPSO.consMap c = .error e) :
    e = .keyError ∧ c ∉ [none, some "Shrink"] := by
  unfold CPSO.consMap at h
  cases c with
  | none => cases h
  | some s =>
    by_cases hs : s = "Shrink"
    · simp [hs] at h
    · simp only [hs, if_false, Except.error.injEq] at h; simp [hs, h]

theorem CPSO.competitivity_iff {a : CPSO.Args K} :
    (∀ gm, a.competitivity = some gm → 0 ≤ gm ∧ gm ≤ 2) ↔ a.badCompetitivity = false := by
  unfold CPSO.Args.badCompetitivity
  cases a.competitivity with
  | none => simp
  | some gm => simp

theorem CPSO.validate_error {env : Env} {a : CPSO.Args K} {e : PyErr} (h : CPSO.validate a = .error e) :
    MisuseCPSO env a e ∧ (a.fn.isSome → DocumentedCPSO a) := by
  unfold CPSO.validate at h
  by_cases h1 : a.fn.isNone = true
  · rw [if_pos h1] at h; cases h
    rw [Option.isNone_iff_eq_none] at h1
    exact ⟨Or.inl h1, fun h => by rw [h1] at h; cases h⟩
  rw [if_neg h1] at h
  by_cases h2 : a.bounds.ndim ≠ 2
  · rw [if_pos h2] at h; cases h
    have : a.bounds.shape ≠ [a.bounds.len, 2] := fun hs => h2 (bounds_shape_iff.1 hs).1
    exact ⟨Or.inl (Or.inl this), fun _ => Or.inl this⟩
  rw [if_neg h2] at h
  by_cases h4 : a.popsize < 2
  · have : e = .valueError := by
      split_ifs at h <;> cases h <;> rfl
    subst this
    exact ⟨Or.inl (Or.inr (Or.inr (Or.inl h4))), fun _ => Or.inr (Or.inr (Or.inl h4))⟩
  have hx : ¬ (a.badX0Shape = false ∧ a.badX0Len = false) →
      ∃ x, a.x0 = some x ∧ x.shape ≠ [a.popsize.toNat, a.bounds.len] := by
    intro hb
    rw [← x0_shape_iff (by omega)] at hb
    push Not at hb
    exact hb
  by_cases h3 : a.badX0Shape = true
  · rw [if_pos h3] at h; cases h
    have := hx (by simp [h3])
    exact ⟨Or.inl (Or.inr (Or.inl this)), fun _ => Or.inr (Or.inl this)⟩
  rw [if_neg h3, if_neg h4] at h
  by_cases h5 : a.badX0Len = true
  · rw [if_pos h5] at h; cases h
    have := hx (by simp [h5])
    exact ⟨Or.inl (Or.inr (Or.inl this)), fun _ => Or.inr (Or.inl this)⟩
  rw [if_neg h5] at h
  by_cases h6 : ¬ (0 ≤ a.inertia ∧ a.inertia ≤ 1)
  · rw [if_pos h6] at h; cases h
    exact ⟨Or.inr (Or.inl ⟨rfl, Or.inl h6⟩), fun _ => Or.inr (Or.inr (Or.inr (Or.inr (Or.inl h6))))⟩
  rw [if_neg h6] at h
  by_cases h7 : ¬ (0 ≤ a.cognitivity ∧ a.cognitivity ≤ 4)
  · rw [if_pos h7] at h; cases h
    exact ⟨Or.inr (Or.inl ⟨rfl, Or.inr (Or.inl h7)⟩), fun _ => Or.inr (Or.inr (Or.inr (Or.inr (Or.inr (Or.inl h7)))))⟩
  rw [if_neg h7] at h
  by_cases h8 : ¬ (0 ≤ a.sociability ∧ a.sociability ≤ 4)
  · rw [if_pos h8] at h; cases h
    exact ⟨Or.inr (Or.inl ⟨rfl, Or.inr (Or.inr (Or.inl h8))⟩), fun _ => Or.inr (Or.inr (Or.inr (Or.inr (Or.inr (Or.inr (Or.inl h8))))))⟩
  rw [if_neg h8] at h
  by_cases h9 : a.badCompetitivity = true
  · rw [if_pos h9] at h; cases h
    have : ∃ gm, a.competitivity = some gm ∧ ¬ (0 ≤ gm ∧ gm ≤ 2) := by
      have h9' : ¬ (a.badCompetitivity = false) := by simp [h9]
      rw [← CPSO.competitivity_iff, not_forall] at h9'
      obtain ⟨gm, hg⟩ := h9'
      exact ⟨gm, Classical.not_imp.1 hg⟩
    exact ⟨Or.inr (Or.inl ⟨rfl, Or.inr (Or.inr (Or.inr (Or.inl this)))⟩), fun _ => Or.inr (Or.inr (Or.inr (Or.inr (Or.inr (Or.inr (Or.inr (Or.inl this)))))))⟩
  rw [if_neg h9] at h
  by_cases h10 : ¬ (a.updating = "immediate" ∨ a.updating = "deferred")
  · rw [if_pos h10] at h; cases h
    have : a.updating ∉ ["immediate", "deferred"] := by simpa using h10
    exact ⟨Or.inr (Or.inl ⟨rfl, Or.inr (Or.inr (Or.inr (Or.inr this)))⟩), fun _ => Or.inr (Or.inr (Or.inr (Or.inr (Or.inr (Or.inr (Or.inr (Or.inr (Or.inl this))))))))⟩
  rw [if_neg h10] at h
  by_cases h11 : a.badCallback = true
  · rw [if_pos h11] at h; cases h
    have : a.callback = some false := by
      by_contra hc; rw [badCallback_iff.2 hc] at h11; cases h11
    exact ⟨Or.inl (Or.inr (Or.inr (Or.inr (Or.inl this)))), fun _ => Or.inr (Or.inr (Or.inr (Or.inl this)))⟩
  · rw [if_neg h11] at h; cases h

theorem CPSO.validate_ok_doc {a : CPSO.Args K} (h : CPSO.validate a = .ok ()) (hd : DocumentedCPSO a) :
    a.bounds.dim1 ≠ 2 ∨ a.constraints ∉ [none, some "Shrink"] := by
  obtain ⟨h1, h2, h3, h4, h5, h6, h7, h8, h9, h10, h11⟩ := CPSO.validate_ok h
  have hx := (x0_shape_iff h4).2 ⟨h3, h5⟩
  have hc := badCallback_iff.1 h11
  have hu : a.updating ∈ ["immediate", "deferred"] := by simpa using h10
  have hg := CPSO.competitivity_iff.2 h9
  rcases hd with hd | ⟨x, hx1, hx2⟩ | hd | hd | hd | hd | hd | ⟨gm, hg1, hg2⟩ | hd | hd
  · left; intro hb; exact hd (bounds_shape_iff.2 ⟨h2, hb⟩)
  · exact absurd (hx x hx1) hx2
  · omega
  · exact absurd hd hc
  · exact absurd h6 hd
  · exact absurd h7 hd
  · exact absurd h8 hd
  · exact absurd (hg gm hg1) hg2
  · exact absurd hu hd
  · exact Or.inr hd

section cpso
variable [NumFns K]

theorem CPSO.step_ne_error {P : CPSO.Par σ K n} {sync : Bool} (hp : 0 < p) {it : Nat} {s : CPSO.State σ K p n} {e : PyErr} :
    (CPSO.alg P sync).step it s ≠ .error e := by
  intro h
  rw [CPSO.alg_step] at h
  cases sync with
  | true =>
    simp only [if_true] at h
    unfold CPSO.stepSync at h
    dsimp only at h
    rw [bind_error_iff] at h
    rcases h with h | ⟨_, _, h⟩
    · exact selectionSync_ne_error hp h
    · cases h
  | false =>
    simp only [Bool.false_eq_true, if_false] at h
    unfold CPSO.stepAsync at h
    cases h

theorem CPSO.minimize_error {env : Env} (he : env.Ok) {R : Rng σ K} {srt : Argsort K} {fuel : Nat} {a : CPSO.Args K} {g : σ}
    (hf : 1 ≤ fuel) (hf' : a.maxiter ≤ 1 + (fuel : Int)) {e : PyErr}
    (h : CPSO.minimize env R srt fuel a g = .error e) : MisuseCPSO env a e := by
  unfold CPSO.minimize at h
  rw [bind_error_iff] at h
  rcases h with h | ⟨_, hv, h⟩
  · exact (CPSO.validate_error h).1
  obtain ⟨h1, h2, h3, h4, h5, h6, h7, h8, h9, h10, h11⟩ := CPSO.validate_ok hv
  have hp : 0 < a.p := by unfold CommonArgs.p; omega
  cases hfn : a.fn with
  | none => rw [hfn] at h1; cases h1
  | some fn =>
    rw [hfn] at h
    dsimp only at h
    rcases wrapper_cases he h with ⟨rfl, _, hb, hm⟩ | ⟨obj, hobj, h⟩
    · exact Or.inl ⟨hb, hm⟩
    rw [bind_error_iff] at h
    rcases h with h | ⟨_, _, h⟩
    · unfold CommonArgs.unpackBounds at h
      split_ifs at h with hd
      cases h
      exact Or.inl (Or.inl fun hs => hd (bounds_shape_iff.1 hs).2)
    rw [bind_error_iff] at h
    rcases h with h | ⟨cons, _, h⟩
    · obtain ⟨rfl, hc⟩ := CPSO.consMap_error h
      exact Or.inr (Or.inr ⟨rfl, hc⟩)
    unfold CPSO.cpso at h
    rw [bind_error_iff] at h
    rcases h with h | ⟨s0, _, h⟩
    · unfold CPSO.init at h
      dsimp only at h
      rw [bind_error_iff] at h
      rcases h with h | ⟨_, _, h⟩
      · exact absurd h (argmin_ne_error hp _)
      · cases h
    rw [bind_error_iff] at h
    rcases h with h | ⟨_, _, h⟩
    · rcases run_error (CPSO.laws a.sync) rfl hp (fun _ => True) trivial (fun _ _ _ _ _ _ => trivial) (fun _ _ _ => trivial)
        hf hf' h with hr | ⟨it, s, _, hs⟩
      · exact Or.inl (recErr_misuse h4 hr)
      · exact absurd hs (CPSO.step_ne_error hp)
    · cases h

theorem CPSO.minimize_valid {env : Env} {R : Rng σ K} {srt : Argsort K} {fuel : Nat} {a : CPSO.Args K} {g : σ}
    {o} (h : CPSO.minimize env R srt fuel a g = .ok o) : ValidCPSO env a := by
  unfold CPSO.minimize at h
  rw [bind_ok_iff] at h
  obtain ⟨_, hv, h⟩ := h
  obtain ⟨h1, h2, h3, h4, h5, h6, h7, h8, h9, h10, h11⟩ := CPSO.validate_ok hv
  cases hfn : a.fn with
  | none => rw [hfn] at h1; cases h1
  | some fn =>
    rw [hfn] at h
    dsimp only at h
    have hmpi : a.backend = some "mpi" → env.mpi4py = true := by
      intro hb
      have hsync : a.sync = true := by unfold CPSO.Args.sync; simp [hb]
      rw [hb, hsync] at h
      exact optimizer_mpi h
    obtain ⟨obj, h⟩ := optimizer_ok' h
    rw [bind_ok_iff] at h
    obtain ⟨_, hd, h⟩ := h
    have hd' : a.bounds.dim1 = 2 := by
      unfold CommonArgs.unpackBounds at hd
      by_contra hne
      rw [if_neg hne] at hd; cases hd
    rw [bind_ok_iff] at h
    obtain ⟨cons, hcons, h⟩ := h
    unfold CPSO.cpso at h
    rw [bind_ok_iff] at h
    obtain ⟨s0, _, h⟩ := h
    rw [bind_ok_iff] at h
    obtain ⟨r, hrun, _⟩ := h
    obtain ⟨hrec, s1, hs1⟩ := run_ok_facts hrun
    exact
      { objective := by rw [hfn]; rfl
        bounds := bounds_shape_iff.2 ⟨h2, hd'⟩
        x0 := (x0_shape_iff h4).2 ⟨h3, h5⟩
        popsize := h4
        callback := badCallback_iff.1 h11
        history := fun hr => ⟨(hrec hr).1, (nout_le h4).1 (hrec hr).2⟩
        mpi := hmpi
        inertia := h6
        cognitivity := h7
        sociability := h8
        competitivity := CPSO.competitivity_iff.2 h9
        updating := by simpa using h10
        constraints := CPSO.consMap_names.1 ⟨_, hcons⟩ }

end cpso

theorem Spec.ValidCPSO.not_misuse {env : Env} {a : CPSO.Args K} (h : ValidCPSO env a) {e : PyErr} : ¬ MisuseCPSO env a e := by
  rintro (hm | ⟨_, hm | hm | hm | ⟨gm, hg, hm⟩ | hm⟩ | ⟨_, hm⟩)
  · exact h.toValidCommon.not_misuse hm
  · exact hm h.inertia
  · exact hm h.cognitivity
  · exact hm h.sociability
  · exact hm (h.competitivity gm hg)
  · exact hm h.updating
  · exact hm h.constraints

/-! ## NA -/

theorem NA.validate_error {env : Env} {a : NA.Args K} {e : PyErr} (h : NA.validate a = .error e) :
    MisuseNA env a e ∧ (a.fn.isSome → DocumentedNA a) := by
  unfold NA.validate at h
  by_cases h1 : a.fn.isNone = true
  · rw [if_pos h1] at h; cases h
    rw [Option.isNone_iff_eq_none] at h1
    exact ⟨Or.inl h1, fun h => by rw [h1] at h; cases h⟩
  rw [if_neg h1] at h
  by_cases h2 : a.bounds.ndim ≠ 2
  · rw [if_pos h2] at h; cases h
    have : a.bounds.shape ≠ [a.bounds.len, 2] := fun hs => h2 (bounds_shape_iff.1 hs).1
    exact ⟨Or.inl (Or.inl this), fun _ => Or.inl this⟩
  rw [if_neg h2] at h
  by_cases h4 : a.popsize < 2
  · have : e = .valueError := by
      split_ifs at h <;> cases h <;> rfl
    subst this
    exact ⟨Or.inl (Or.inr (Or.inr (Or.inl h4))), fun _ => Or.inr (Or.inr (Or.inl h4))⟩
  have hx : ¬ (a.badX0Shape = false ∧ a.badX0Len = false) →
      ∃ x, a.x0 = some x ∧ x.shape ≠ [a.popsize.toNat, a.bounds.len] := by
    intro hb
    rw [← x0_shape_iff (by omega)] at hb
    push Not at hb
    exact hb
  by_cases h3 : a.badX0Shape = true
  · rw [if_pos h3] at h; cases h
    have := hx (by simp [h3])
    exact ⟨Or.inl (Or.inr (Or.inl this)), fun _ => Or.inr (Or.inl this)⟩
  rw [if_neg h3, if_neg h4] at h
  by_cases h5 : a.badX0Len = true
  · rw [if_pos h5] at h; cases h
    have := hx (by simp [h5])
    exact ⟨Or.inl (Or.inr (Or.inl this)), fun _ => Or.inr (Or.inl this)⟩
  rw [if_neg h5] at h
  by_cases h6 : ¬ (0 < a.nrperc ∧ a.nrperc ≤ 1)
  · rw [if_pos h6] at h; cases h
    exact ⟨Or.inr ⟨rfl, h6⟩, fun _ => by unfold DocumentedNA; tauto⟩
  rw [if_neg h6] at h
  by_cases h11 : a.badCallback = true
  · rw [if_pos h11] at h; cases h
    have : a.callback = some false := by
      by_contra hc; rw [badCallback_iff.2 hc] at h11; cases h11
    exact ⟨Or.inl (Or.inr (Or.inr (Or.inr (Or.inl this)))), fun _ => by unfold DocumentedNA; tauto⟩
  · rw [if_neg h11] at h; cases h

theorem NA.validate_ok_doc {a : NA.Args K} (h : NA.validate a = .ok ()) (hd : DocumentedNA a) : a.bounds.dim1 ≠ 2 := by
  obtain ⟨h1, h2, h3, h4, h5, h6, h7⟩ := NA.validate_ok h
  have hx := (x0_shape_iff h4).2 ⟨h3, h5⟩
  have hc := badCallback_iff.1 h7
  rcases hd with hd | ⟨x, hx1, hx2⟩ | hd | hd | hd
  · intro hb; exact hd (bounds_shape_iff.2 ⟨h2, hb⟩)
  · exact absurd (hx x hx1) hx2
  · omega
  · exact absurd hd hc
  · exact absurd h6 hd

theorem NA.nr_bounds {a : NA.Args K} (hp : 2 ≤ a.popsize) (h : 0 < a.nrperc ∧ a.nrperc ≤ 1) : 1 ≤ a.nr ∧ a.nr ≤ a.p := by
  have hp' : (0 : K) < (a.popsize : K) := by exact_mod_cast (by omega : (0 : Int) < a.popsize)
  have h1 : pyInt (a.nrperc * (a.popsize : K)) ≤ a.popsize := by
    unfold pyInt
    rw [if_pos (mul_nonneg h.1.le hp'.le)]
    have : a.nrperc * (a.popsize : K) ≤ (a.popsize : K) := by
      have := mul_le_mul_of_nonneg_right h.2 hp'.le
      rwa [one_mul] at this
    have h2 := Int.floor_mono this
    rwa [Int.floor_intCast] at h2
  unfold NA.Args.nr CommonArgs.p
  omega

/-- A generation of NA does not raise as long as there are at least `nr` models. -/
theorem NA.step_ne_error {P : NA.Par σ K n} (hp : 0 < p) (hnr : 0 < P.nr) {it : Nat} {s : NA.State σ K p n}
    (hs : P.nr ≤ s.All.length) {e : PyErr} : (NA.alg P).step it s ≠ .error e := by
  intro h
  change NA.step P it s = .error e at h
  unfold NA.step at h
  rw [bind_error_iff] at h
  rcases h with h | ⟨_, _, h⟩
  · obtain ⟨i, g0, h⟩ := NA.seqFinS_error h
    unfold NA.mutRow at h
    dsimp only at h
    have : i.val % P.nr < P.nr := Nat.mod_lt _ hnr
    rw [dif_pos (by simp; omega)] at h
    cases h
  · rw [bind_error_iff] at h
    rcases h with h | ⟨_, _, h⟩
    · exact selectionSync_ne_error hp h
    · cases h

theorem NA.minimize_error {env : Env} (he : env.Ok) {R : Rng σ K} {srt : Argsort K} {fuel : Nat} {a : NA.Args K} {g : σ}
    (hf : 1 ≤ fuel) (hf' : a.maxiter ≤ 1 + (fuel : Int)) {e : PyErr}
    (h : NA.minimize env R srt fuel a g = .error e) : MisuseNA env a e := by
  unfold NA.minimize at h
  rw [bind_error_iff] at h
  rcases h with h | ⟨_, hv, h⟩
  · exact (NA.validate_error h).1
  obtain ⟨h1, h2, h3, h4, h5, h6, h7⟩ := NA.validate_ok hv
  have hp : 0 < a.p := by unfold CommonArgs.p; omega
  obtain ⟨hnr, hnr'⟩ := NA.nr_bounds h4 h6
  cases hfn : a.fn with
  | none => rw [hfn] at h1; cases h1
  | some fn =>
    rw [hfn] at h
    dsimp only at h
    rcases wrapper_cases he h with ⟨rfl, _, hb, hm⟩ | ⟨obj, hobj, h⟩
    · exact Or.inl ⟨hb, hm⟩
    rw [bind_error_iff] at h
    rcases h with h | ⟨_, _, h⟩
    · unfold CommonArgs.unpackBounds at h
      split_ifs at h with hd
      cases h
      exact Or.inl (Or.inl fun hs => hd (bounds_shape_iff.1 hs).2)
    unfold NA.na at h
    rw [bind_error_iff] at h
    rcases h with h | ⟨s0, hs0, h⟩
    · unfold NA.init at h
      dsimp only at h
      rw [bind_error_iff] at h
      rcases h with h | ⟨_, _, h⟩
      · exact absurd h (argmin_ne_error hp _)
      · cases h
    obtain ⟨i, _, rfl⟩ := NA.init_ok hs0
    rw [bind_error_iff] at h
    rcases h with h | ⟨_, _, h⟩
    · rcases run_error NA.laws rfl hp (fun s => a.p ≤ s.All.length) (by simp) (by
          intro it s s' st hI hs
          obtain ⟨X, r, _, _, _, rfl⟩ := NA.step_ok hs
          dsimp only
          rw [List.length_append]
          omega) (fun _ _ h => h)
        hf hf' h with hr | ⟨it, s, hI, hs⟩
      · exact Or.inl (recErr_misuse h4 hr)
      · refine absurd hs (NA.step_ne_error hp ?_ ?_)
        · exact hnr
        · exact le_trans hnr' hI
    · cases h

theorem NA.minimize_valid {env : Env} {R : Rng σ K} {srt : Argsort K} {fuel : Nat} {a : NA.Args K} {g : σ}
    {o} (h : NA.minimize env R srt fuel a g = .ok o) : ValidNA env a := by
  unfold NA.minimize at h
  rw [bind_ok_iff] at h
  obtain ⟨_, hv, h⟩ := h
  obtain ⟨h1, h2, h3, h4, h5, h6, h7⟩ := NA.validate_ok hv
  cases hfn : a.fn with
  | none => rw [hfn] at h1; cases h1
  | some fn =>
    rw [hfn] at h
    dsimp only at h
    have hmpi : a.backend = some "mpi" → env.mpi4py = true := by
      intro hb
      rw [hb] at h
      exact optimizer_mpi h
    obtain ⟨obj, h⟩ := optimizer_ok' h
    rw [bind_ok_iff] at h
    obtain ⟨_, hd, h⟩ := h
    have hd' : a.bounds.dim1 = 2 := by
      unfold CommonArgs.unpackBounds at hd
      by_contra hne
      rw [if_neg hne] at hd; cases hd
    unfold NA.na at h
    rw [bind_ok_iff] at h
    obtain ⟨s0, _, h⟩ := h
    rw [bind_ok_iff] at h
    obtain ⟨r, hrun, _⟩ := h
    obtain ⟨hrec, s1, hs1⟩ := run_ok_facts hrun
    exact
      { objective := by rw [hfn]; rfl
        bounds := bounds_shape_iff.2 ⟨h2, hd'⟩
        x0 := (x0_shape_iff h4).2 ⟨h3, h5⟩
        popsize := h4
        callback := badCallback_iff.1 h7
        history := fun hr => ⟨(hrec hr).1, (nout_le h4).1 (hrec hr).2⟩
        mpi := hmpi
        nrperc := h6 }

theorem Spec.ValidNA.not_misuse {env : Env} {a : NA.Args K} (h : ValidNA env a) {e : PyErr} : ¬ MisuseNA env a e := by
  rintro (hm | ⟨_, hm⟩)
  · exact h.toValidCommon.not_misuse hm
  · exact hm h.nrperc

end
end Stochopy
