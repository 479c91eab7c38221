import Verif.Lemmas.EvoPen

/-! The uninitialised array `xold`. -/

set_option linter.unusedSectionVars false

namespace Stochopy.Evo
open Spec
variable {K σ S : Type} [Field K] [LinearOrder K] [IsStrictOrderedRing K] [NumFns K] [FloorRing K] {p n : Nat}
  {P : Par K n} {G : Gauss S K p n} {c : Cfg} {rng : S → σ} {fuel : Nat}

/-- Two initial states that sample, evaluate and adapt alike. -/
structure Alike (P : Par K n) (G : Gauss S K p n) (s t : S) : Prop where
  sample : (∃ e, G.sample s = .error e ∧ G.sample t = .error e) ∨
    ∃ X s' t', G.sample s = .ok (X, s') ∧ G.sample t = .ok (X, t') ∧
      evaluate P G 1 X s' (Pen.start n) = evaluate P G 1 X t' (Pen.start n) ∧ ∀ k o, G.update k X o s' = G.update k X o t'

theorem Alike.run {s t : S} (h : Alike P G s t) (hf : 0 < fuel) : run P G c rng fuel s = run P G c rng fuel t := by
  have hb : body P G c (init c s) = body P G c (init c t) := by
    rcases h.sample with ⟨e, h1, h2⟩ | ⟨X, s', t', h1, h2, h3, h4⟩
    · have e1 : G.sample (init c s : St S K p n).s = .error e := h1
      have e2 : G.sample (init c t : St S K p n).s = .error e := h2
      unfold body
      rw [e1, e2, error_bind', error_bind']
    · have e1 : G.sample (init c s : St S K p n).s = .ok (X, s') := h1
      have e2 : G.sample (init c t : St S K p n).s = .ok (X, t') := h2
      have e3 : evaluate P G ((init c s : St S K p n).it + 1) X s' (init c s : St S K p n).pen =
        evaluate P G ((init c t : St S K p n).it + 1) X t' (init c t : St S K p n).pen := h3
      unfold body
      rw [e1, e2, ok_bind', ok_bind']
      dsimp only
      rw [e3]
      simp only [h4]
      rfl
  have hl : loop P G c fuel (init c s) = loop P G c fuel (init c t) := by
    obtain ⟨k, rfl⟩ : ∃ k, fuel = k + 1 := ⟨fuel - 1, by omega⟩
    rw [loop, loop, hb]
  unfold Evo.run
  split_ifs
  · rfl
  · have : ∀ s, loop P G c fuel { s := s, it := 0, nfev := 0, pen := Pen.start n, arbest := List.replicate c.maxiter.toNat (.fin 0), rowsX := [], rowsF := [], cbs := [], evals := [] } = loop P G c fuel (init c s) := fun _ => rfl
    rw [this, this, hl]

/-- The weights do not depend on `xold` while the mean is inside the box. -/
theorem weightsUpdate_inside {srt : Argsort K} {xmean xold xold' : Vec K n} {sigma : K} {diagC : Vec K n} {me : K} {it : Nat}
    {hist : List (Val K)} {valid : Bool} {pen : Pen K n} (h : ∀ j, outside xmean j = false) :
    weightsUpdate srt xmean xold sigma diagC me it hist valid pen = weightsUpdate srt xmean xold' sigma diagC me it hist valid pen := by
  have h0 : decide (∃ j, outside xmean j = true) = false := by
    rw [decide_eq_false_iff_not]
    rintro ⟨j, hj⟩
    rw [h j] at hj; cases hj
  unfold weightsUpdate
  simp only [h0, Bool.false_and, Bool.false_eq_true, if_false]

theorem penalize_inside {srt : Argsort K} {fit : Pop K p n → Fin p → Val K} {arx : Pop K p n} {xmean xold xold' : Vec K n} {sigma : K}
    {diagC : Vec K n} {me : K} {it : Nat} {pen : Pen K n} (h : ∀ j, outside xmean j = false) :
    penalize srt fit arx xmean xold sigma diagC me it pen = penalize srt fit arx xmean xold' sigma diagC me it pen := by
  unfold penalize
  have := fun hist valid => weightsUpdate_inside (srt := srt) (xold := xold) (xold' := xold') (sigma := sigma) (diagC := diagC)
    (me := me) (it := it) (hist := hist) (valid := valid) (pen := pen) h
  simp only [this]

theorem outside_false {x : Vec K n} {j : Fin n} (h : -1 ≤ x j ∧ x j ≤ 1) : outside x j = false := by
  unfold outside
  rw [decide_eq_false (not_lt.2 h.1), decide_eq_false (not_lt.2 h.2)]
  rfl

theorem evaluate_inside {it : Nat} {X : Pop K p n} {s t : S} {pen : Pen K n} (h1 : G.mean s = G.mean t) (h2 : G.sigma s = G.sigma t)
    (h3 : G.diagC s = G.diagC t) (h : P.penalized = false ∨ ∀ j, -1 ≤ G.mean t j ∧ G.mean t j ≤ 1) :
    evaluate P G it X s pen = evaluate P G it X t pen := by
  unfold evaluate
  cases hp : P.penalized with
  | false => rfl
  | true =>
    rcases h with h | h
    · rw [h] at hp; cases hp
    · dsimp only
      rw [if_pos rfl, if_pos rfl, h1, h2, h3]
      exact penalize_inside fun j => outside_false (h j)

variable {m junk junk' : Vec K n} {sigma : K} {g : σ}

theorem _root_.Stochopy.CMAES.alike {A : CMAES.Par σ K p n} (h : P.penalized = false ∨ ∀ j, -1 ≤ m j ∧ m j ≤ 1) :
    Alike P (CMAES.gauss A) (CMAES.start m junk sigma g) (CMAES.start m junk' sigma g) where
  sample := Or.inr ⟨_, _, _, rfl, rfl, evaluate_inside rfl rfl rfl h, fun _ _ => rfl⟩

theorem _root_.Stochopy.VDCMA.alike {A : VDCMA.Par σ K p n} (h : P.penalized = false ∨ ∀ j, -1 ≤ m j ∧ m j ≤ 1) :
    Alike P (VDCMA.gauss A) (VDCMA.start A.R m junk sigma g) (VDCMA.start A.R m junk' sigma g) where
  sample := by
    by_cases hn : 0 < VDCMA.normV (VDCMA.start A.R m junk sigma g : VDCMA.State σ K p n).vvec ∧
        ∀ j, 0 < (VDCMA.start A.R m junk sigma g : VDCMA.State σ K p n).dvec j
    · right
      have hn' : 0 < VDCMA.normV (VDCMA.start A.R m junk' sigma g : VDCMA.State σ K p n).vvec ∧
        ∀ j, 0 < (VDCMA.start A.R m junk' sigma g : VDCMA.State σ K p n).dvec j := hn
      have e : ∀ x : Vec K n, 0 < VDCMA.normV (VDCMA.start A.R m x sigma g : VDCMA.State σ K p n).vvec ∧
        (∀ j, 0 < (VDCMA.start A.R m x sigma g : VDCMA.State σ K p n).dvec j) → 
        (VDCMA.gauss A).sample (VDCMA.start A.R m x sigma g) = .ok
          (fun i j => (VDCMA.start A.R m x sigma g : VDCMA.State σ K p n).xmean j +
              (VDCMA.start A.R m x sigma g : VDCMA.State σ K p n).sigma *
                VDCMA.spread (VDCMA.start A.R m x sigma g : VDCMA.State σ K p n).dvec
                  (VDCMA.start A.R m x sigma g : VDCMA.State σ K p n).vvec
                  ((drawMat A.R.randn p n (VDCMA.start A.R m x sigma g : VDCMA.State σ K p n).rng).1 i) j,
            { (VDCMA.start A.R m x sigma g : VDCMA.State σ K p n) with
              ary := fun i => VDCMA.spread (VDCMA.start A.R m x sigma g : VDCMA.State σ K p n).dvec
                  (VDCMA.start A.R m x sigma g : VDCMA.State σ K p n).vvec
                  ((drawMat A.R.randn p n (VDCMA.start A.R m x sigma g : VDCMA.State σ K p n).rng).1 i)
              diagC := VDCMA.diagCov (VDCMA.start A.R m x sigma g : VDCMA.State σ K p n).dvec
                (VDCMA.start A.R m x sigma g : VDCMA.State σ K p n).vvec
              rng := (drawMat A.R.randn p n (VDCMA.start A.R m x sigma g : VDCMA.State σ K p n).rng).2 }) := by
        intro x hx
        show VDCMA.sample A _ = _
        unfold VDCMA.sample
        rw [need_true hx, ok_bind']
        rfl
      exact ⟨_, _, _, e junk hn, e junk' hn', evaluate_inside rfl rfl rfl h, fun _ _ => rfl⟩
    · left
      have hn' : ¬ (0 < VDCMA.normV (VDCMA.start A.R m junk' sigma g : VDCMA.State σ K p n).vvec ∧
        ∀ j, 0 < (VDCMA.start A.R m junk' sigma g : VDCMA.State σ K p n).dvec j) := hn
      refine ⟨.unmodelled, ?_, ?_⟩
      · show VDCMA.sample A _ = _
        unfold VDCMA.sample need
        rw [if_neg hn, error_bind']
      · show VDCMA.sample A _ = _
        unfold VDCMA.sample need
        rw [if_neg hn', error_bind']

/-- The initial mean is in the box if it is drawn or if `x0` is. -/
theorem firstMean_box {R : Rng σ K} {a : Args K} {g : σ} {m : Vec K a.ndim × σ} (hR : R.Ok)
    (hx : ∀ x, a.x0 = some x → ∀ j, a.lower j ≤ x.get [j] ∧ x.get [j] ≤ a.upper j) (h : a.firstMean R g = .ok m) (j : Fin a.ndim) :
    -1 ≤ m.1 j ∧ m.1 j ≤ 1 := by
  unfold Args.firstMean at h
  split at h
  · cases h
    have h1 := hR.rand_nonneg ((fun g => (R.rand g).2)^[j.val] g)
    have h2 := hR.rand_lt_one ((fun g => (R.rand g).2)^[j.val] g)
    simp only [unif, drawVec]
    constructor <;> linarith
  · rename_i x hx'
    rw [bind_ok_iff] at h
    obtain ⟨u, h1, h⟩ := h
    rw [need_ok] at h1
    cases h
    have hb := hx x hx' j
    have hlt : a.lower j < a.upper j := lt_of_le_of_ne (hb.1.trans hb.2) (h1 j)
    have hs : (0 : K) < 1 / 2 * (a.upper j - a.lower j) := by linarith
    simp only [standardize]
    constructor
    · rw [le_div_iff₀ hs]; linarith
    · rw [div_le_iff₀ hs]; linarith

end Stochopy.Evo
