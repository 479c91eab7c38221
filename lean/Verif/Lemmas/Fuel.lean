import Verif.Lemmas.DE
import Verif.Lemmas.CPSO
import Verif.Lemmas.NA

/-! Fuel: no run needs more than `maxiter` units, and more fuel changes nothing. -/

set_option linter.unusedSectionVars false

namespace Stochopy
variable {K σ S : Type} [AddZeroClass K] [One K] [Sub K] [Mul K] [Div K] [Neg K] [NatCast K] [IntCast K] [Pow K ℕ] [ArrayOps K] [LinearOrder K] {p n : Nat} {A : Alg S K p n} {c : Cfg}

theorem loop_mono : ∀ (f f' : Nat) (L : Loop S K p n), f ≤ f' → A.loop c f L ≠ .error .outOfFuel →
    A.loop c f' L = A.loop c f L := by
  intro f
  induction f with
  | zero => intro f' L _ h; exact absurd rfl h
  | succ f ih =>
    intro f' L hle h
    obtain ⟨f', rfl⟩ : ∃ k, f' = k + 1 := ⟨f' - 1, by omega⟩
    rw [Alg.loop] at h
    rw [Alg.loop, Alg.loop]
    cases hb : A.body c L with
    | error e => rfl
    | ok r =>
      rw [hb] at h
      change (if r.2 = true then Except.ok r.1 else A.loop c f r.1) ≠ _ at h
      change (if r.2 = true then Except.ok r.1 else A.loop c f' r.1) = if r.2 = true then Except.ok r.1 else A.loop c f r.1
      by_cases hr : r.2 = true
      · rw [if_pos hr, if_pos hr]
      · rw [if_neg hr] at h ⊢
        rw [if_neg hr]
        exact ih f' r.1 (by omega) h

theorem run_mono {f f' : Nat} {s0 : S} (hle : f ≤ f') (h : A.run c f s0 ≠ .error .outOfFuel) :
    A.run c f' s0 = A.run c f s0 := by
  unfold Alg.run at h ⊢
  cases h0 : A.start c s0 with
  | error e => rfl
  | ok L0 =>
    rw [h0] at h
    change (A.loop c f L0 >>= fun L => A.finish c L >>= fun r => Except.ok (r, L)) ≠ _ at h
    change (A.loop c f' L0 >>= fun L => A.finish c L >>= fun r => Except.ok (r, L)) =
      (A.loop c f L0 >>= fun L => A.finish c L >>= fun r => Except.ok (r, L))
    rw [loop_mono f f' L0 hle]
    intro hf
    rw [hf] at h
    exact h rfl

theorem optimizer_ne_outOfFuel {α : Type} {env : Env} {fn : Vec K n → Val K} {sync : Bool} {w : Int} {b : Option String}
    {k : Obj K n → Except PyErr α} (h : ∀ obj, k obj ≠ .error .outOfFuel) :
    optimizer env fn sync w b k ≠ .error .outOfFuel := by
  intro h1
  have hw : ∀ s p, wrapper env fn sync s p ≠ .error .outOfFuel := by
    intro s p h2; unfold wrapper at h2; split_ifs at h2 <;> simp at h2
  unfold optimizer at h1
  dsimp only at h1
  split_ifs at h1 <;> rw [bind_error_iff] at h1 <;> rcases h1 with h1 | ⟨obj, _, h1⟩
  · exact hw _ _ h1
  · exact h _ h1
  · exact hw _ _ h1
  · exact h _ h1

theorem argmin_error {v : Fin p → Val K} {e : PyErr} (h : argmin v = .error e) : e = .valueError := by
  unfold argmin at h; split at h <;> simp at h; exact h.symm

section
variable [IntParts K] {env : Env} {R : Rng σ K} {srt : Argsort K} {g : σ}

theorem unpackBounds_ne (a : CommonArgs K) : a.unpackBounds ≠ .error .outOfFuel := by
  unfold CommonArgs.unpackBounds; split_ifs <;> simp

theorem DE.minimize_fuel {a : DE.Args K} {fuel : Nat} (hf : 1 ≤ fuel) (hf' : a.maxiter ≤ 1 + (fuel : Int)) :
    DE.minimize env R fuel a g ≠ .error .outOfFuel ∧
    ∀ fuel', fuel ≤ fuel' → DE.minimize env R fuel' a g = DE.minimize env R fuel a g := by
  have key : ∀ strat, DE.validate a = .ok strat → ∀ (P : DE.Par σ K a.p a.ndim), P.strat = strat → P.maxiter = a.maxiter →
      DE.de P a.sync a.cfg fuel a.x0Pop (a.seeded R g) ≠ .error .outOfFuel ∧
      ∀ fuel', fuel ≤ fuel' →
        DE.de P a.sync a.cfg fuel' a.x0Pop (a.seeded R g) = DE.de P a.sync a.cfg fuel a.x0Pop (a.seeded R g) := by
    intro strat hv P hP hm
    have hstr : ∀ d F X g, P.strat d F X g ≠ .error .outOfFuel :=
      hP ▸ DE.strategyMap_ne_outOfFuel (DE.validate_ok hv).2.2.2.2.2.2.2.2.1
    have hrun : ∀ s0, (DE.alg P a.sync).run a.cfg fuel s0 ≠ .error .outOfFuel := fun s0 =>
      run_fuel (DE.laws a.sync hstr) hf (hm ▸ hf')
    constructor
    · intro h
      unfold DE.de at h
      rw [bind_error_iff] at h
      rcases h with h | ⟨s0, _, h⟩
      · unfold DE.init at h
        rw [bind_error_iff] at h
        rcases h with h | ⟨_, _, h⟩
        · exact argmin_ne_outOfFuel _ h
        · simp at h
      · rw [bind_error_iff] at h
        rcases h with h | ⟨_, _, h⟩
        · exact hrun s0 h
        · simp at h
    · intro fuel' hle
      unfold DE.de
      congr 1
      funext s0
      rw [run_mono hle (hrun s0)]
  constructor
  · intro h
    unfold DE.minimize at h
    rw [bind_error_iff] at h
    rcases h with h | ⟨strat, hv, h⟩
    · unfold DE.validate at h
      repeat' split at h
      all_goals first | (simp at h; done) | skip
      rename_i e he
      simp only [Except.error.injEq] at h
      subst h
      unfold DE.strategyMap at he
      split_ifs at he; simp at he
    · cases hfn : a.fn with
      | none => rw [hfn] at h; simp at h
      | some fn =>
        rw [hfn] at h
        refine optimizer_ne_outOfFuel ?_ h
        intro obj h
        rw [bind_error_iff] at h
        rcases h with h | ⟨_, _, h⟩
        · exact unpackBounds_ne _ h
        · rw [bind_error_iff] at h
          rcases h with h | ⟨_, _, h⟩
          · unfold DE.consMap at h; repeat' split at h
            all_goals simp at h
          · exact (key strat hv _ rfl rfl).1 h
  · intro fuel' hle
    unfold DE.minimize
    cases hv : DE.validate a with
    | error e => rfl
    | ok strat =>
      cases hfn : a.fn with
      | none => rfl
      | some fn =>
        change optimizer _ _ _ _ _ _ = optimizer _ _ _ _ _ _
        congr 1
        funext obj
        congr 1
        funext _
        congr 1
        funext _
        exact (key strat hv _ rfl rfl).2 fuel' hle

theorem CPSO.validate_ne {a : CPSO.Args K} : CPSO.validate a ≠ .error .outOfFuel := by
  unfold CPSO.validate
  repeat refine ite_error_ne (by decide) ?_
  exact fun h => by cases h

theorem NA.validate_ne {a : NA.Args K} : NA.validate a ≠ .error .outOfFuel := by
  unfold NA.validate
  repeat refine ite_error_ne (by decide) ?_
  exact fun h => by cases h

theorem CPSO.minimize_fuel [NumFns K] {a : CPSO.Args K} {fuel : Nat} (hf : 1 ≤ fuel)
    (hf' : a.maxiter ≤ 1 + (fuel : Int)) :
    CPSO.minimize env R srt fuel a g ≠ .error .outOfFuel ∧
    ∀ fuel', fuel ≤ fuel' → CPSO.minimize env R srt fuel' a g = CPSO.minimize env R srt fuel a g := by
  have key : ∀ (P : CPSO.Par σ K a.ndim), P.maxiter = a.maxiter →
      CPSO.cpso P a.sync a.cfg fuel a.x0Pop (a.seeded R g) ≠ .error .outOfFuel ∧
      ∀ fuel', fuel ≤ fuel' →
        CPSO.cpso P a.sync a.cfg fuel' a.x0Pop (a.seeded R g) = CPSO.cpso P a.sync a.cfg fuel a.x0Pop (a.seeded R g) := by
    intro P hm
    have hrun : ∀ s0, (CPSO.alg (p := a.p) P a.sync).run a.cfg fuel s0 ≠ .error .outOfFuel := fun s0 =>
      run_fuel (CPSO.laws a.sync) hf (hm ▸ hf')
    constructor
    · intro h
      unfold CPSO.cpso at h
      rw [bind_error_iff] at h
      rcases h with h | ⟨s0, _, h⟩
      · unfold CPSO.init at h
        rw [bind_error_iff] at h
        rcases h with h | ⟨_, _, h⟩
        · exact argmin_ne_outOfFuel _ h
        · simp at h
      · rw [bind_error_iff] at h
        rcases h with h | ⟨_, _, h⟩
        · exact hrun s0 h
        · simp at h
    · intro fuel' hle
      unfold CPSO.cpso
      congr 1
      funext s0
      rw [run_mono hle (hrun s0)]
  constructor
  · intro h
    unfold CPSO.minimize at h
    rw [bind_error_iff] at h
    rcases h with h | ⟨_, hv, h⟩
    · exact CPSO.validate_ne h
    · cases hfn : a.fn with
      | none => rw [hfn] at h; simp at h
      | some fn =>
        rw [hfn] at h
        refine optimizer_ne_outOfFuel ?_ h
        intro obj h
        rw [bind_error_iff] at h
        rcases h with h | ⟨_, _, h⟩
        · exact unpackBounds_ne _ h
        · rw [bind_error_iff] at h
          rcases h with h | ⟨_, _, h⟩
          · unfold CPSO.consMap at h; repeat' split at h
            all_goals simp at h
          · exact (key _ rfl).1 h
  · intro fuel' hle
    unfold CPSO.minimize
    cases hv : CPSO.validate a with
    | error e => rfl
    | ok _ =>
      cases hfn : a.fn with
      | none => rfl
      | some fn =>
        change optimizer _ _ _ _ _ _ = optimizer _ _ _ _ _ _
        congr 1
        funext obj
        congr 1
        funext _
        congr 1
        funext _
        exact (key _ rfl).2 fuel' hle

theorem NA.minimize_fuel {a : NA.Args K} {fuel : Nat} (hf : 1 ≤ fuel)
    (hf' : a.maxiter ≤ 1 + (fuel : Int)) :
    NA.minimize env R srt fuel a g ≠ .error .outOfFuel ∧
    ∀ fuel', fuel ≤ fuel' → NA.minimize env R srt fuel' a g = NA.minimize env R srt fuel a g := by
  have key : ∀ (P : NA.Par σ K a.ndim), P.maxiter = a.maxiter →
      NA.na P a.cfg fuel (a.x0Pop) (a.seeded R g) ≠ .error .outOfFuel ∧
      ∀ fuel', fuel ≤ fuel' →
        NA.na P a.cfg fuel' a.x0Pop (a.seeded R g) = NA.na P a.cfg fuel a.x0Pop (a.seeded R g) := by
    intro P hm
    have hrun : ∀ s0, (NA.alg (p := a.p) P).run a.cfg fuel s0 ≠ .error .outOfFuel := fun s0 =>
      run_fuel NA.laws hf (hm ▸ hf')
    constructor
    · intro h
      unfold NA.na at h
      rw [bind_error_iff] at h
      rcases h with h | ⟨s0, _, h⟩
      · unfold NA.init at h
        rw [bind_error_iff] at h
        rcases h with h | ⟨_, _, h⟩
        · exact argmin_ne_outOfFuel _ h
        · simp at h
      · rw [bind_error_iff] at h
        rcases h with h | ⟨_, _, h⟩
        · exact hrun s0 h
        · simp at h
    · intro fuel' hle
      unfold NA.na
      congr 1
      funext s0
      rw [run_mono hle (hrun s0)]
  constructor
  · intro h
    unfold NA.minimize at h
    rw [bind_error_iff] at h
    rcases h with h | ⟨_, hv, h⟩
    · exact NA.validate_ne h
    · cases hfn : a.fn with
      | none => rw [hfn] at h; simp at h
      | some fn =>
        rw [hfn] at h
        refine optimizer_ne_outOfFuel ?_ h
        intro obj h
        rw [bind_error_iff] at h
        rcases h with h | ⟨_, _, h⟩
        · exact unpackBounds_ne _ h
        · exact (key _ rfl).1 h
  · intro fuel' hle
    unfold NA.minimize
    cases hv : NA.validate a with
    | error e => rfl
    | ok _ =>
      cases hfn : a.fn with
      | none => rfl
      | some fn =>
        change optimizer _ _ _ _ _ _ = optimizer _ _ _ _ _ _
        congr 1
        funext obj
        congr 1
        funext _
        exact (key _ rfl).2 fuel' hle

end
end Stochopy
