import Verif.Lemmas.Evo
import Verif.Model.SigmaArg
import Verif.Spec.SigmaArg

/-!
# Two runs that differ only in what `converge` gets as `insigma`
-/

namespace Stochopy.Evo

variable {K σ S : Type} [Field K] [LinearOrder K] [NumFns K] [IntParts K] {p n : Nat}
  {P : Par K n} {G : Gauss S K p n} {c : Cfg}

/-- With a constant `insigma`, `bodyBy` is `body`. -/
theorem bodyBy_const (s : K) (P : Par K n) (G : Gauss S K p n) (c : Cfg) (L : St S K p n) :
    bodyBy (fun _ => s) P G c L = body { P with insigma := s } G c L := by
  unfold bodyBy body
  dsimp only [bind, Except.bind]
  cases G.sample L.s with
  | error e => rfl
  | ok a =>
    dsimp only
    have he : evaluate { P with insigma := s } G (L.it + 1) a.1 a.2 L.pen = evaluate P G (L.it + 1) a.1 a.2 L.pen := rfl
    rw [he]
    cases evaluate P G (L.it + 1) a.1 a.2 L.pen with
    | error e => rfl
    | ok e =>
      dsimp only
      cases record c (L.it + 1) (fun i => unstandardize P.lower P.upper (e.2.1 i)) e.1 with
      | error e => rfl
      | ok rows =>
        dsimp only
        by_cases hp : 0 < p
        · rw [dif_pos hp, dif_pos hp]
          by_cases hm : c.maxiter ≤ ((L.it + 1 : Nat) : Int) - 1
          · rw [if_pos hm, if_pos hm]
          · rw [if_neg hm, if_neg hm]
            cases G.update (L.nfev + p) a.1 (P.srt p e.1) a.2 with
            | error e => rfl
            | ok s =>
              dsimp only
              cases need (∀ j, 0 ≤ G.diagConv s j) with
              | error e => rfl
              | ok u => rfl
        · rw [dif_neg hp, dif_neg hp]

theorem loopBy_const (s : K) (P : Par K n) (G : Gauss S K p n) (c : Cfg) (fuel : Nat) (L : St S K p n) :
    loopBy (fun _ => s) P G c fuel L = loop { P with insigma := s } G c fuel L := by
  induction fuel generalizing L with
  | zero => rfl
  | succ k ih =>
    rw [loopBy, loop, bodyBy_const]
    refine congrArg _ (funext fun r => ?_)
    rw [ih]

/-- A number as `sigma`. -/
theorem runBy_scalar (s : K) (P : Par K n) (G : Gauss S K p n) (c : Cfg) (rng : S → σ) (fuel : Nat) (s0 : S) :
    runBy (.scalar s) P G c rng fuel s0 = (run { P with insigma := s } G c rng fuel s0).map fun o => (o, .scalar s) := by
  unfold runBy run
  dsimp only [SigmaArg.insigma, SigmaArg.first, SigmaArg.left]
  rw [loopBy_const]
  by_cases h : c.maxiter < 0
  · rw [if_pos h, if_pos h]; rfl
  · rw [if_neg h, if_neg h]
    cases loop { P with insigma := s } G c fuel _ with
    | error e => rfl
    | ok r =>
      dsimp only [bind, Except.bind]
      cases finish c r with
      | error e => rfl
      | ok res => rfl

/-- The two tests that look at `insigma`. -/
def ByScale (st : Option Int) : Prop := st = some (-6) ∨ st = some (-8)

theorem converge_insigma (it : Nat) (maxiter : Int) (xmean xold : Vec K n) (arbest : List (Val K)) (fit : Fin p → Val K)
    (best : Val K) (sigma i i' : K) (ilim : Nat) (pc : Vec K n) (xtol : K) (ftol : Val K) (diagC : Vec K n)
    (axes : Option (Matrix (Fin n) (Fin n) K × Vec K n)) :
    ByScale (converge it maxiter xmean xold arbest fit best sigma i ilim pc xtol ftol diagC axes) ∨
    ByScale (converge it maxiter xmean xold arbest fit best sigma i' ilim pc xtol ftol diagC axes) ∨
    converge it maxiter xmean xold arbest fit best sigma i ilim pc xtol ftol diagC axes =
      converge it maxiter xmean xold arbest fit best sigma i' ilim pc xtol ftol diagC axes := by
  unfold converge ByScale
  dsimp only
  by_cases h1 : maxiter ≤ (it : Int)
  · rw [if_pos h1, if_pos h1]; exact .inr (.inr rfl)
  rw [if_neg h1, if_neg h1]
  by_cases h2 : (distLe xold xmean xtol && decide (best < ftol)) = true
  · rw [if_pos h2, if_pos h2]; exact .inr (.inr rfl)
  rw [if_neg h2, if_neg h2]
  by_cases h3 : best ≤ ftol
  · rw [if_pos h3, if_pos h3]; exact .inr (.inr rfl)
  rw [if_neg h3, if_neg h3]
  have key : ∀ (b b' : Bool) (q3 q5 q6 q6' q7 q8 q8' : Prop) [Decidable q3] [Decidable q5] [Decidable q6] [Decidable q6'] [Decidable q7]
      [Decidable q8] [Decidable q8'] (t t' : Option Int),
      t = (if b = true then some (-2) else if q3 then some (-3) else if b' = true then some (-4) else if q5 then some (-5)
        else if q6 then some (-6) else if q7 then some (-7) else if q8 then some (-8) else none) →
      t' = (if b = true then some (-2) else if q3 then some (-3) else if b' = true then some (-4) else if q5 then some (-5)
        else if q6' then some (-6) else if q7 then some (-7) else if q8' then some (-8) else none) →
      (t = some (-6) ∨ t = some (-8)) ∨ (t' = some (-6) ∨ t' = some (-8)) ∨ t = t' := by
    intro b b' q3 q5 q6 q6' q7 q8 q8' _ _ _ _ _ _ _ t t' h h'
    split_ifs at h h' <;> subst h <;> subst h' <;> simp
  exact key _ _ _ _ _ _ _ _ _ _ _ rfl rfl

theorem bodyBy_ok {ins : S → K} {L : St S K p n} {r : St S K p n × Gen K p n} (h : bodyBy ins P G c L = .ok r) :
    ∃ r0, body P G c L = .ok r0 ∧ r = (r0.1, { r0.2 with
      status := converge r0.1.it c.maxiter (G.mean r0.1.s) (G.old r0.1.s) r0.1.arbest r0.2.fit (r0.2.fit r0.2.best) (G.sigma r0.1.s)
        (ins r0.1.s) P.ilim (G.pc r0.1.s) P.xtol P.ftol (G.diagConv r0.1.s) (G.axes r0.1.s) }) := by
  unfold bodyBy at h
  rw [bind_ok_iff] at h
  obtain ⟨r0, h0, h⟩ := h
  cases h
  exact ⟨r0, h0, rfl⟩

/-- The requests of a loop extend those of its start. -/
theorem loopBy_evals {ins : S → K} : ∀ (fuel : Nat) (L : St S K p n) (r), loopBy ins P G c fuel L = .ok r → L.evals <+: r.1.evals := by
  intro fuel
  induction fuel with
  | zero => intro L r h; cases h
  | succ k ih =>
    intro L r h
    rw [loopBy, bind_ok_iff] at h
    obtain ⟨r1, h1, h⟩ := h
    have e1 : L.evals <+: r1.1.evals := by
      obtain ⟨r0, h0, rfl⟩ := bodyBy_ok h1
      obtain ⟨hp, a, e, rows, s, -, -, -, -, -, -, rfl⟩ := body_ok h0
      exact List.prefix_append _ _
    by_cases hs : r1.2.status.isSome = true
    · rw [if_pos hs] at h; cases h; exact e1
    · rw [if_neg hs] at h; exact e1.trans (ih _ _ h)

/-- Two loops that return either are stopped by one of the two tests or return the same; one makes the requests of the other, and
perhaps more. -/
theorem loopBy_compare {ins ins' : S → K} : ∀ (fuel fuel' : Nat) (L : St S K p n) (r r'),
    loopBy ins P G c fuel L = .ok r → loopBy ins' P G c fuel' L = .ok r' →
    (ByScale r.2.status ∨ ByScale r'.2.status ∨ r = r') ∧
    ((r.1.evals <+: r'.1.evals ∧ (r.1.evals = r'.1.evals ∨ ByScale r.2.status)) ∨
     (r'.1.evals <+: r.1.evals ∧ (r.1.evals = r'.1.evals ∨ ByScale r'.2.status))) := by
  intro fuel
  induction fuel with
  | zero => intro _ L r r' h; cases h
  | succ k ih =>
    intro fuel' L r r' h h'
    cases fuel' with
    | zero => cases h'
    | succ k' =>
      rw [loopBy, bind_ok_iff] at h h'
      obtain ⟨r1, h1, h⟩ := h
      obtain ⟨r1', h1', h'⟩ := h'
      obtain ⟨r0, h0, rfl⟩ := bodyBy_ok h1
      obtain ⟨r0', h0', rfl⟩ := bodyBy_ok h1'
      rw [h0] at h0'
      cases h0'
      dsimp only at h h'
      have hc := converge_insigma r0.1.it c.maxiter (G.mean r0.1.s) (G.old r0.1.s) r0.1.arbest r0.2.fit (r0.2.fit r0.2.best) (G.sigma r0.1.s)
        (ins r0.1.s) (ins' r0.1.s) P.ilim (G.pc r0.1.s) P.xtol P.ftol (G.diagConv r0.1.s) (G.axes r0.1.s)
      generalize hst : converge r0.1.it c.maxiter (G.mean r0.1.s) (G.old r0.1.s) r0.1.arbest r0.2.fit (r0.2.fit r0.2.best) (G.sigma r0.1.s)
        (ins r0.1.s) P.ilim (G.pc r0.1.s) P.xtol P.ftol (G.diagConv r0.1.s) (G.axes r0.1.s) = st at h hc
      generalize hst' : converge r0.1.it c.maxiter (G.mean r0.1.s) (G.old r0.1.s) r0.1.arbest r0.2.fit (r0.2.fit r0.2.best) (G.sigma r0.1.s)
        (ins' r0.1.s) P.ilim (G.pc r0.1.s) P.xtol P.ftol (G.diagConv r0.1.s) (G.axes r0.1.s) = st' at h' hc
      have some_of : ∀ {st : Option Int}, ByScale st → st.isSome = true := by
        rintro st (rfl | rfl) <;> rfl
      by_cases hs : st.isSome = true
      · rw [if_pos hs] at h
        cases h
        by_cases hs' : st'.isSome = true
        · rw [if_pos hs'] at h'
          cases h'
          refine ⟨?_, .inl ⟨List.prefix_refl _, .inl rfl⟩⟩
          rcases hc with hc | hc | hc
          · exact .inl hc
          · exact .inr (.inl hc)
          · exact .inr (.inr (by rw [hc]))
        · rw [if_neg hs'] at h'
          have hb : ByScale st := by
            rcases hc with hc | hc | hc
            · exact hc
            · exact absurd (some_of hc) hs'
            · rw [hc] at hs; exact absurd hs hs'
          exact ⟨.inl hb, .inl ⟨loopBy_evals _ _ _ h', .inr hb⟩⟩
      · rw [if_neg hs] at h
        by_cases hs' : st'.isSome = true
        · rw [if_pos hs'] at h'
          cases h'
          have hb : ByScale st' := by
            rcases hc with hc | hc | hc
            · exact absurd (some_of hc) hs
            · exact hc
            · rw [← hc] at hs'; exact absurd hs' hs
          exact ⟨.inr (.inl hb), .inr ⟨loopBy_evals _ _ _ h, .inr hb⟩⟩
        · rw [if_neg hs'] at h'
          exact ih _ _ _ _ h h'

theorem finish_status {r : St S K p n × Gen K p n} {res : Result K n} (h : finish c r = .ok res) : r.2.status = some res.status := by
  unfold finish at h
  cases hs : r.2.status with
  | none => rw [hs] at h; cases h
  | some st =>
    rw [hs] at h
    dsimp only at h
    cases hm : messages st with
    | none => rw [hm] at h; cases h
    | some m => rw [hm] at h; cases h; rfl

theorem runBy_compare {sg sg' l l' : SigmaArg K} {rng : S → σ} {fuel fuel' : Nat} {s0 : S} {o o' : Output σ K p n}
    (h : runBy sg P G c rng fuel s0 = .ok (o, l)) (h' : runBy sg' P G c rng fuel' s0 = .ok (o', l')) : Spec.Close o o' := by
  unfold runBy at h h'
  by_cases hm : c.maxiter < 0
  · rw [if_pos hm] at h; cases h
  rw [if_neg hm, bind_ok_iff] at h h'
  obtain ⟨r, h1, h⟩ := h
  obtain ⟨r', h1', h'⟩ := h'
  rw [bind_ok_iff] at h h'
  obtain ⟨res, h2, h⟩ := h
  obtain ⟨res', h2', h'⟩ := h'
  cases h
  cases h'
  have hc := loopBy_compare _ _ _ _ _ h1 h1'
  have e := finish_status h2
  have e' := finish_status h2'
  have hb : ∀ {s : Option Int} {k : Int}, s = some k → ByScale s → k = -6 ∨ k = -8 := by
    rintro s k rfl (hs | hs)
    · exact .inl (Option.some.inj hs)
    · exact .inr (Option.some.inj hs)
  constructor
  · intro n1 n2
    rcases hc.1 with hx | hx | rfl
    · exact absurd (hb e hx) n1
    · exact absurd (hb e' hx) n2
    · rw [h2] at h2'
      cases h2'
      rfl
  · exact hc.2.imp (And.imp_right (Or.imp_right (hb e))) (And.imp_right (Or.imp_right (hb e')))

/-- The checks of an array with one entry are those of the entry. -/
theorem validateSigma_scalar (a : Args K) (s : K) : a.validateSigma (.scalar s) = { a with sigma := s }.validate := by
  unfold Args.validateSigma Args.validate
  dsimp only [SigmaArg.check]
  by_cases h1 : a.fn.isNone = true
  · rw [if_pos h1, if_pos h1]
  rw [if_neg h1, if_neg h1]
  by_cases h2 : a.bounds.ndim ≠ 2
  · rw [if_pos h2, if_pos h2]
  rw [if_neg h2, if_neg h2]
  have hb : ({ a with sigma := s } : Args K).badX0 = a.badX0 := rfl
  rw [hb]
  by_cases h3 : a.badX0 = true
  · rw [if_pos h3, if_pos h3]
  rw [if_neg h3, if_neg h3]
  by_cases h4 : s ≤ 0
  · rw [if_pos h4, if_pos h4]; rfl
  rw [if_neg h4, if_neg h4]
  rfl

/-- Lists and longer arrays are rejected. -/
theorem validateSigma_rejects (a : Args K) {sg : SigmaArg K} (h : ∀ s, sg ≠ .scalar s ∧ sg ≠ .array [s]) :
    ∃ e, a.validateSigma sg = .error e := by
  unfold Args.validateSigma
  by_cases h1 : a.fn.isNone = true
  · rw [if_pos h1]; exact ⟨_, rfl⟩
  rw [if_neg h1]
  by_cases h2 : a.bounds.ndim ≠ 2
  · rw [if_pos h2]; exact ⟨_, rfl⟩
  rw [if_neg h2]
  by_cases h3 : a.badX0 = true
  · rw [if_pos h3]; exact ⟨_, rfl⟩
  rw [if_neg h3]
  match sg, h with
  | .scalar s, h => exact absurd rfl (h s).1
  | .list l, _ => exact ⟨_, rfl⟩
  | .array [], _ => exact ⟨_, rfl⟩
  | .array [s], h => exact absurd rfl (h s).2
  | .array (_ :: _ :: _), _ => exact ⟨_, rfl⟩

theorem validateSigma_positive (a : Args K) {s : K} (hs : s ≤ 0) : ∃ e, a.validateSigma (.array [s]) = .error e := by
  unfold Args.validateSigma
  by_cases h1 : a.fn.isNone = true
  · rw [if_pos h1]; exact ⟨_, rfl⟩
  rw [if_neg h1]
  by_cases h2 : a.bounds.ndim ≠ 2
  · rw [if_pos h2]; exact ⟨_, rfl⟩
  rw [if_neg h2]
  by_cases h3 : a.badX0 = true
  · rw [if_pos h3]; exact ⟨_, rfl⟩
  rw [if_neg h3]
  have hc : (SigmaArg.array [s]).check = .error .valueError := if_pos hs
  rw [hc]
  exact ⟨_, rfl⟩

end Stochopy.Evo
