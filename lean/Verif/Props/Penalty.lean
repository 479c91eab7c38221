import Verif.Lemmas.EvoJunk
import Verif.Props.Gaussian
import Verif.Model.Defaults

/-!
# `Penalize`, standardised coordinates, uninitialised memory
-/

set_option linter.unusedSectionVars false

namespace Stochopy.Props
open Evo Spec Concrete

section
variable {K σ : Type} [Field K] [LinearOrder K] [IsStrictOrderedRing K] [NumFns K] [LawfulNumFns K] [FloorRing K] {env : Env}
  {R : Rng σ K} {srt : Argsort K} {eigh : CMAES.Eigh K} {fuel : Nat} {g : σ} {a : Args K} {junk : Vec K a.ndim}
  {o : Output σ K a.p a.ndim}

/-! ## C37 -/

/-- Evaluated, shown, recorded and reported points satisfy the bounds. -/
theorem C37_cmaes_box (he : env.Ok) (h : CMAES.minimize env R srt eigh fuel a junk g = .ok o) (hc0 : a.constraints = some "Penalize")
    (hle : ∀ j, a.lower j ≤ a.upper j) : AllInBox a.lower a.upper o := by
  obtain ⟨fn, obj, pen, m, hd, hfn, hv, hobj, hb, hc, hm, hrun⟩ := CMAES.minimize_ok he h
  obtain ⟨gs, gn, L', L, st, H⟩ := run_reach hrun
  exact H.inBox ((consMap_ok hc).2.2 hc0) hle

/-- Reported values are not below the objective. -/
theorem C37_cmaes_value (he : env.Ok) (h : CMAES.minimize env R srt eigh fuel a junk g = .ok o) (hc0 : a.constraints = some "Penalize")
    (hs : IsArgsort srt) {fn : Vec K a.ndim → Val K} (hf : a.fn = some fn) : AllReported (fun x f => ¬ f < fn x) o := by
  obtain ⟨fn', obj, pen, m, hd, hfn, hv, hobj, hb, hc, hm, hrun⟩ := CMAES.minimize_ok he h
  rw [hf] at hfn; cases hfn
  obtain ⟨gs, gn, L', L, st, H⟩ := run_reach hrun
  exact H.reported fun M M' g' hM hb i => body_value hobj hs ((consMap_ok hc).2.2 hc0) hM hb i

/-- Inside the bounds reported values are values of the objective. -/
theorem C37_cmaes_inside_partial (he : env.Ok) (h : CMAES.minimize env R srt eigh fuel a junk g = .ok o) (hc0 : a.constraints = some "Penalize")
    (hs : IsArgsort srt) {fn : Vec K a.ndim → Val K} (hf : a.fn = some fn) (hfin : FiniteValued fn) :
    AllReported (fun x f => (∀ j, a.lower j < x j ∧ x j < a.upper j) → f = fn x) o := by
  obtain ⟨fn', obj, pen, m, hd, hfn, hv, hobj, hb, hc, hm, hrun⟩ := CMAES.minimize_ok he h
  rw [hf] at hfn; cases hfn
  obtain ⟨gs, gn, L', L, st, H⟩ := run_reach hrun
  exact H.reported fun M M' g' hM hb i hi => body_inside hobj hfin hs ((consMap_ok hc).2.2 hc0) hM hb i hi

/-- Evaluated, shown, recorded and reported points satisfy the bounds. -/
theorem C37_vdcma_box (he : env.Ok) (h : VDCMA.minimize env R srt fuel a junk g = .ok o) (hc0 : a.constraints = some "Penalize")
    (hle : ∀ j, a.lower j ≤ a.upper j) : AllInBox a.lower a.upper o := by
  obtain ⟨fn, obj, pen, m, hd, hfn, hv, hobj, hb, hc, hm, hrun⟩ := VDCMA.minimize_ok he h
  obtain ⟨gs, gn, L', L, st, H⟩ := run_reach hrun
  exact H.inBox ((consMap_ok hc).2.2 hc0) hle

/-- Reported values are not below the objective. -/
theorem C37_vdcma_value (he : env.Ok) (h : VDCMA.minimize env R srt fuel a junk g = .ok o) (hc0 : a.constraints = some "Penalize")
    (hs : IsArgsort srt) {fn : Vec K a.ndim → Val K} (hf : a.fn = some fn) : AllReported (fun x f => ¬ f < fn x) o := by
  obtain ⟨fn', obj, pen, m, hd, hfn, hv, hobj, hb, hc, hm, hrun⟩ := VDCMA.minimize_ok he h
  rw [hf] at hfn; cases hfn
  obtain ⟨gs, gn, L', L, st, H⟩ := run_reach hrun
  exact H.reported fun M M' g' hM hb i => body_value hobj hs ((consMap_ok hc).2.2 hc0) hM hb i

/-- Inside the bounds reported values are values of the objective. -/
theorem C37_vdcma_inside_partial (he : env.Ok) (h : VDCMA.minimize env R srt fuel a junk g = .ok o) (hc0 : a.constraints = some "Penalize")
    (hs : IsArgsort srt) {fn : Vec K a.ndim → Val K} (hf : a.fn = some fn) (hfin : FiniteValued fn) :
    AllReported (fun x f => (∀ j, a.lower j < x j ∧ x j < a.upper j) → f = fn x) o := by
  obtain ⟨fn', obj, pen, m, hd, hfn, hv, hobj, hb, hc, hm, hrun⟩ := VDCMA.minimize_ok he h
  rw [hf] at hfn; cases hfn
  obtain ⟨gs, gn, L', L, st, H⟩ := run_reach hrun
  exact H.reported fun M M' g' hM hb i hi => body_inside hobj hfin hs ((consMap_ok hc).2.2 hc0) hM hb i hi

/-- Candidates inside the box (boundary included) get the value of the objective, in every generation of every run. -/
theorem C37_feasible_partial {S : Type} {p n : Nat} {P : Evo.Par K n} {G : Gauss S K p n} {c : Cfg} {s0 : S} {fn : Vec K n → Val K}
    (hobj : P.obj.Faithful fn) (hfin : FiniteValued fn) (hs : IsArgsort P.srt) (hp : P.penalized = true) {L : St S K p n}
    (hL : Reach P G c s0 L) {arx : Pop K p n} {s : S} {it : Nat} {r} (h : evaluate P G it arx s L.pen = .ok r) {i : Fin p}
    (hi : ∀ j, -1 ≤ arx i j ∧ arx i j ≤ 1) : r.1 i = fn (unstandardize P.lower P.upper (arx i)) ∧ r.2.1 i = arx i := by
  rw [evaluate_pen hp] at h
  have hF := (penalize_fin hs (fit_fin hobj hfin) (reach_penInv hs hL).nonempty (reach_penFin hobj hfin hs hL) h).1
  have hcl := clip_of_box hi
  have h1 := penalize_feasible hF h hcl
  obtain ⟨hist, -, -, h3, -, -⟩ := penalize_ok h
  rw [hobj.pop, h3] at h1
  dsimp only at h1
  rw [hcl] at h1
  rw [h3]
  exact ⟨h1, hcl⟩

/-- The history of fitness ranges: never empty, never zero or negative, of bounded length; weights never negative. -/
theorem C37_history {S : Type} {p n : Nat} {P : Evo.Par K n} {G : Gauss S K p n} {c : Cfg} {s0 : S} (hs : IsArgsort P.srt)
    {L : St S K p n} (hL : Reach P G c s0 L) :
    L.pen.hist ≠ [] ∧ (∀ d ∈ L.pen.hist, ¬ d ≤ .fin 0) ∧ (L.pen.hist.length : K) < 21 + 3 * (n : K) / (p : K) ∧
    ∀ j, ¬ L.pen.w j < .fin 0 := by
  have h := reach_penInv hs hL
  refine ⟨h.nonempty, fun d hd => ?_, h.length, fun j => ?_⟩
  · obtain ⟨h1, h2⟩ := h.entries d hd
    intro h3
    exact h2 (Val.le_antisymm' h3 ((Val.not_lt_iff (by simp) (Val.ne_nan_left h3)).1 h1))
  · exact h.weights j

/-- With finite values everything in the history is a positive number and the computation does not raise. -/
theorem C37_finite_partial {S : Type} {p n : Nat} {P : Evo.Par K n} {G : Gauss S K p n} {c : Cfg} {s0 : S} {fn : Vec K n → Val K}
    (hobj : P.obj.Faithful fn) (hfin : FiniteValued fn) (hs : IsArgsort P.srt) {L : St S K p n} (hL : Reach P G c s0 L) :
    (∀ d ∈ L.pen.hist, ∃ k, 0 < k ∧ d = .fin k) ∧ (∀ j, ∃ k, 0 ≤ k ∧ L.pen.w j = .fin k) ∧
    ∀ (arx : Pop K p n) (s : S) (it : Nat), 0 < n → 0 < p → 0 < P.mueff → 0 < G.sigma s → (∀ j, 0 < G.diagC s j) →
      ∃ r, evaluate P G it arx s L.pen = .ok r := by
  have hF := reach_penFin hobj hfin hs hL
  refine ⟨hF.entries, hF.weights, fun arx s it hn hp hme hsi hd => ?_⟩
  cases hpen : P.penalized with
  | false => exact ⟨_, evaluate_free hpen⟩
  | true =>
    rw [evaluate_pen hpen]
    exact penalize_total hs hn hp hsi hme hd (fit_fin hobj hfin) (reach_penInv hs hL).nonempty hF

/-! ## C58 -/

/-- Inverse to each other; the bounds become -1 and 1; inside means inside. -/
theorem C58_cmaes {n : Nat} {lower upper : Vec K n} {j : Fin n} (hj : lower j < upper j) (x : Vec K n) :
    unstandardize lower upper (standardize lower upper x) j = x j ∧
    standardize lower upper (unstandardize lower upper x) j = x j ∧
    standardize lower upper lower j = -1 ∧ standardize lower upper upper j = 1 ∧
    (-1 ≤ standardize lower upper x j ↔ lower j ≤ x j) ∧ (standardize lower upper x j ≤ 1 ↔ x j ≤ upper j) := by
  have hs : (0 : K) < 1 / 2 * (upper j - lower j) := by linarith
  unfold unstandardize standardize
  refine ⟨?_, ?_, ?_, ?_, ?_, ?_⟩
  · rw [div_mul_cancel₀ _ hs.ne']; ring
  · rw [div_eq_iff hs.ne']; ring
  · rw [div_eq_iff hs.ne']; ring
  · rw [div_eq_iff hs.ne']; ring
  · rw [le_div_iff₀ hs]; constructor <;> intro h <;> linarith
  · rw [div_le_iff₀ hs]; constructor <;> intro h <;> linarith

example : standardize (fun _ : Fin 1 => (-2 : ℚ)) (fun _ => 6) (fun _ => 0) 0 = -1 / 2 := by decide +kernel

/-! ## C60 -/

theorem mul_one_val (w : Val K) : w * .fin 1 = w := by
  cases w with
  | nan => rfl
  | fin a => exact congrArg Val.fin (mul_one a)
  | pinf => exact if_pos one_pos
  | ninf => exact if_pos one_pos

section
variable {n : Nat} {xmean xold : Vec K n} {sigma : K} {diagC : Vec K n} {me : K} {it : Nat} {hist : List (Val K)} {valid : Bool}
  {pen : Pen K n}

/-- A mean below the lower bound, however far and however it moves, never makes a weight grow: the new weight is the initial
one or the old one. -/
theorem C60_lower_violated (hs : 0 < sigma) {j : Fin n} (hd : 0 < diagC j) (hx : xmean j < -1) :
    (weightsUpdate srt xmean xold sigma diagC me it hist valid pen).1 j =
      if pen.ini then .fin (20002 / 10000) * median srt hist else pen.w j := by
  have hany : decide (∃ j, outside xmean j = true) = true :=
    decide_eq_true ⟨j, by unfold outside; rw [decide_eq_true hx]; rfl⟩
  have ho : overshoot xmean j = 0 := by
    unfold overshoot; rw [if_neg (by linarith), sub_self]
  have hq : 0 ≤ 3 * max 1 (NumFns.sqrt ((n : K) / me)) * sigma * NumFns.sqrt (diagC j) := by
    have h1 : (0 : K) ≤ max 1 (NumFns.sqrt ((n : K) / me)) := zero_le_one.trans (le_max_left _ _)
    have h2 := LawfulNumFns.sqrt_pos _ hd
    positivity
  unfold weightsUpdate
  dsimp only
  rw [ho, absv_eq, abs_zero, decide_eq_false (not_lt.2 hq), hany]
  simp only [Bool.and_false, Bool.false_and, Bool.false_eq_true, if_false, Bool.and_true]
  cases pen.ini <;> rfl

/-- Above the upper bound the weight grows exactly when the mean is far enough outside and was closer before. -/
theorem C60_upper_partial {j : Fin n} (hx : 1 < xmean j) :
    (weightsUpdate srt xmean xold sigma diagC me it hist valid pen).1 j =
      (if pen.ini then .fin (20002 / 10000) * median srt hist else pen.w j) *
        if 3 * max 1 (NumFns.sqrt ((n : K) / me)) * sigma * NumFns.sqrt (diagC j) < xmean j - 1 ∧ xold j < xmean j
        then .fin (growth n me) else .fin 1 := by
  have hout : outside xmean j = true := by unfold outside; rw [decide_eq_true hx, Bool.or_true]
  have hany : decide (∃ j, outside xmean j = true) = true := decide_eq_true ⟨j, hout⟩
  have ho : overshoot xmean j = xmean j - 1 := by unfold overshoot; rw [if_pos hx]
  have hpos : 0 < xmean j - 1 := sub_pos.2 hx
  have hsg : sgn (xmean j - 1) = 1 := if_pos hpos
  have hsg' : (1 : Int) = sgn (xmean j - xold j) ↔ xold j < xmean j := by
    unfold sgn
    split_ifs with h1 h2
    · exact ⟨fun _ => sub_pos.1 h1, fun _ => rfl⟩
    · exact ⟨fun h => absurd h (by decide), fun h => absurd (sub_pos.2 h) h1⟩
    · exact ⟨fun h => absurd h (by decide), fun h => absurd (sub_pos.2 h) h1⟩
  unfold weightsUpdate
  dsimp only
  rw [ho, absv_eq, abs_of_pos hpos, hsg, hany, hout]
  simp only [Bool.true_and, Bool.and_true, Bool.and_eq_true, decide_eq_true_eq, hsg']
  have h1 : ∀ w : Val K, w * .fin 1 = w := mul_one_val
  cases pen.ini <;> simp only [Bool.false_eq_true, if_false, if_true] <;> split_ifs <;> simp only [h1]

/-- The initialisation does not distinguish the bounds. -/
theorem C60_initial_partial (x : Vec K n) (j : Fin n) : outside (fun j => -x j) j = outside x j := by
  unfold outside
  rw [Bool.or_comm]
  congr 1 <;> rw [decide_eq_decide] <;> constructor <;> intro h <;> linarith

end

/-- The two bounds are not treated alike. -/
theorem C60_violated : ∃ (xmean xold diagC : Vec ℚ 1) (pen : Pen ℚ 1),
    (weightsUpdate stableArgsort xmean xold (1 / 10) diagC 1 3 [.fin 1] true pen).1 0 ≠
    (weightsUpdate stableArgsort (fun j => -xmean j) (fun j => -xold j) (1 / 10) diagC 1 3 [.fin 1] true pen).1 0 :=
  ⟨fun _ => 5, fun _ => 4, fun _ => 1, { w := fun _ => .fin 1, hist := [.fin 1], valid := true, ini := false }, by decide +kernel⟩

/-! ## C31: uninitialised memory -/

/-- Without `Penalize`, or when the starting point is drawn or inside the bounds, the content of the uninitialised array
does not matter. -/
theorem C31_cmaes_memory_partial (hf : 0 < fuel) (hR : R.Ok)
    (h : a.constraints = none ∨ ∀ x, a.x0 = some x → ∀ j, a.lower j ≤ x.get [j] ∧ x.get [j] ≤ a.upper j) (junk' : Vec K a.ndim) :
    CMAES.minimize env R srt eigh fuel a junk g = CMAES.minimize env R srt eigh fuel a junk' g := by
  unfold CMAES.minimize
  congr 1; funext _
  cases a.fn with
  | none => rfl
  | some fn =>
    dsimp only
    congr 1; funext obj; congr 1; funext _
    cases hc : consMap a.constraints with
    | error e => rfl
    | ok pen =>
      rw [ok_bind', ok_bind']
      cases hm : a.firstMean R (a.seeded R g) with
      | error e => rfl
      | ok m =>
        rw [ok_bind', ok_bind']
        split_ifs
        · refine Alike.run (CMAES.alike ?_) hf
          rcases h with h | h
          · exact Or.inl (consMap_none h hc)
          · exact Or.inr (firstMean_box hR h hm)
        · rfl

/-- Without `Penalize`, or when the starting point is drawn or inside the bounds, the content of the uninitialised array
does not matter. -/
theorem C31_vdcma_memory_partial (hf : 0 < fuel) (hR : R.Ok)
    (h : a.constraints = none ∨ ∀ x, a.x0 = some x → ∀ j, a.lower j ≤ x.get [j] ∧ x.get [j] ≤ a.upper j) (junk' : Vec K a.ndim) :
    VDCMA.minimize env R srt fuel a junk g = VDCMA.minimize env R srt fuel a junk' g := by
  unfold VDCMA.minimize
  congr 1; funext _
  cases a.fn with
  | none => rfl
  | some fn =>
    dsimp only
    congr 1; funext obj; congr 1; funext _
    cases hc : consMap a.constraints with
    | error e => rfl
    | ok pen =>
      rw [ok_bind', ok_bind']
      cases hm : a.firstMean R (a.seeded R g) with
      | error e => rfl
      | ok m =>
        rw [ok_bind', ok_bind']
        split_ifs
        · refine Alike.run (VDCMA.alike ?_) hf
          rcases h with h | h
          · exact Or.inl (consMap_none h hc)
          · exact Or.inr (firstMean_box hR h hm)
        · rfl

end

/-- The first coordinate of the starting point is outside the bounds. -/
def farArgs : Args ℚ :=
  { evoArgs with constraints := some "Penalize", maxiter := 1, seed := some 3, x0 := some { shape := [2], get := fun _ => 5 } }

/-- With `Penalize` and a starting point outside the bounds the result depends on the content of the uninitialised array,
although a seed is given. -/
theorem C31_violated :
    (∃ o o', CMAES.minimize Concrete.env rng stableArgsort eighDiag 10 farArgs (fun _ => 0) 0 = .ok o ∧
      CMAES.minimize Concrete.env rng stableArgsort eighDiag 10 farArgs (fun _ => 10) 0 = .ok o' ∧ o.res.fval ≠ o'.res.fval) ∧
    ∃ o o', VDCMA.minimize Concrete.env rng stableArgsort 10 farArgs (fun _ => 0) 0 = .ok o ∧
      VDCMA.minimize Concrete.env rng stableArgsort 10 farArgs (fun _ => 10) 0 = .ok o' ∧ o.res.fval ≠ o'.res.fval := by
  constructor
  · obtain ⟨o, ho, ht⟩ := returns_iff (r := CMAES.minimize Concrete.env rng stableArgsort eighDiag 10 farArgs (fun _ => 0) 0)
      (t := fun o => returns (CMAES.minimize Concrete.env rng stableArgsort eighDiag 10 farArgs (fun _ => 10) 0)
        fun o' => decide (o.res.fval ≠ o'.res.fval)) (by decide +kernel)
    obtain ⟨o', ho', ht'⟩ := returns_iff ht
    exact ⟨o, o', ho, ho', of_decide_eq_true ht'⟩
  · obtain ⟨o, ho, ht⟩ := returns_iff (r := VDCMA.minimize Concrete.env rng stableArgsort 10 farArgs (fun _ => 0) 0)
      (t := fun o => returns (VDCMA.minimize Concrete.env rng stableArgsort 10 farArgs (fun _ => 10) 0)
        fun o' => decide (o.res.fval ≠ o'.res.fval)) (by decide +kernel)
    obtain ⟨o', ho', ht'⟩ := returns_iff ht
    exact ⟨o, o', ho, ho', of_decide_eq_true ht'⟩

/-! ## C37: runs, and a run that raises -/

/-- Penalised runs in which candidates leave the box. -/
def penArgs : Args ℚ := { evoArgs with constraints := some "Penalize", sigma := 1, seed := some 3 }

theorem _root_.Stochopy.Concrete.cmaes_pen_run :
    ∃ o, CMAES.minimize Concrete.env rng stableArgsort eighDiag 10 penArgs junk0 0 = .ok o ∧ o.res.nit = 3 ∧
      ∃ x ∈ o.evals, x (0 : Fin 2) = 1 := by
  obtain ⟨o, h, ht⟩ := returns_iff (r := CMAES.minimize Concrete.env rng stableArgsort eighDiag 10 penArgs junk0 0)
    (t := fun o => decide (o.res.nit = 3) && decide (∃ x ∈ o.evals, x (0 : Fin 2) = 1)) (by decide +kernel)
  rw [Bool.and_eq_true] at ht
  exact ⟨o, h, of_decide_eq_true ht.1, of_decide_eq_true ht.2⟩

theorem _root_.Stochopy.Concrete.vdcma_pen_run :
    ∃ o, VDCMA.minimize Concrete.env rng stableArgsort 10 penArgs junk0 0 = .ok o ∧ o.res.nit = 3 ∧
      ∃ x ∈ o.evals, x (0 : Fin 2) = 1 := by
  obtain ⟨o, h, ht⟩ := returns_iff (r := VDCMA.minimize Concrete.env rng stableArgsort 10 penArgs junk0 0)
    (t := fun o => decide (o.res.nit = 3) && decide (∃ x ∈ o.evals, x (0 : Fin 2) = 1)) (by decide +kernel)
  rw [Bool.and_eq_true] at ht
  exact ⟨o, h, of_decide_eq_true ht.1, of_decide_eq_true ht.2⟩

/-- NaN at a point of the first generation, constant elsewhere. -/
def nanFn (x : Vec ℚ 2) : Val ℚ := if x 0 = -1 / 5 ∨ x 0 = 3 / 5 then .nan else .fin 5

def nanArgs : Args ℚ := { evoArgs with fn := some nanFn, constraints := some "Penalize", sigma := 1, seed := some 3 }

/-- Does the call raise `e`? -/
def raises {α : Type} (r : Except PyErr α) (e : PyErr) : Bool :=
  match r with
  | .ok _ => false
  | .error e' => decide (e' = e)

theorem raises_iff {α : Type} {r : Except PyErr α} {e : PyErr} (h : raises r e = true) : r = .error e := by
  cases r with
  | ok _ => cases h
  | error e' => rw [of_decide_eq_true h]

/-- A NaN in one generation followed by a constant generation: the history holds only the NaN, no positive entry is found,
and the call raises ValueError although its arguments are valid. -/
theorem C37_violated : ValidEvo Concrete.env nanArgs ∧
    CMAES.minimize Concrete.env rng stableArgsort eighDiag 10 nanArgs junk0 0 = .error .valueError ∧
    VDCMA.minimize Concrete.env rng stableArgsort 10 nanArgs junk0 0 = .error .valueError := by
  refine ⟨⟨rfl, rfl, nofun, ?_, ?_, nofun, ?_, ?_, fun _ => Or.inl (le_refl _), nofun⟩, raises_iff (by decide +kernel),
    raises_iff (by decide +kernel)⟩
  · show (0 : ℚ) < 1; norm_num
  · show (0 : ℚ) < 1 / 2 ∧ (1 / 2 : ℚ) ≤ 1; norm_num
  · show some "Penalize" ∈ _; simp
  · show (1 : Int) ≤ 3; norm_num

/-! ## C59 -/

section
variable {K σ : Type} [Field K] [LinearOrder K] [IsStrictOrderedRing K] [NumFns K] [LawfulNumFns K] [FloorRing K] {env : Env}
  {R : Rng σ K} {srt : Argsort K} {eigh : CMAES.Eigh K} {fuel : Nat} {g : σ} {bounds : NdArr K} {fn : Vec K bounds.len → Val K}

theorem sizes_defaults (hd : 0 < bounds.len) : Sizes (Evo.defaults bounds fn) where
  dim := hd
  popsize := by show (0 : Int) < 10; norm_num
  parents := by
    show (1 : K) ≤ 5 / 10 * ((10 : Int) : K)
    norm_num
  width h := absurd rfl h

theorem valid_defaults (hb : bounds.shape = [bounds.len, 2]) : ValidEvo env (Evo.defaults bounds fn) where
  objective := rfl
  bounds := hb
  x0 := nofun
  sigma := by show (0 : K) < 1 / 10; norm_num
  muperc := by show (0 : K) < 5 / 10 ∧ (5 / 10 : K) ≤ 1; norm_num
  callback := nofun
  constraints := by show none ∈ _; simp
  maxiter := by show (1 : Int) ≤ 100; norm_num
  history := nofun
  mpi := nofun

theorem C59_cmaes (he : env.Ok) (hs : IsArgsort srt) (heig : IsEigh eigh) (hf : 100 ≤ fuel) (hb : bounds.shape = [bounds.len, 2])
    (hd : 0 < bounds.len) (junk : Vec K (Evo.defaults bounds fn).ndim) :
    ∃ o, CMAES.minimize env R srt eigh fuel (Evo.defaults bounds fn) junk g = .ok o := by
  refine (C66_cmaes he hs heig (by omega) (by show (100 : Int) ≤ fuel; omega) (sizes_defaults hd) ?_ nofun).2 (valid_defaults hb)
  show (5 / 10 : K) * ((10 : Int) : K) < ((bounds.len : K) + 13 / 10) ^ 2
  have : (1 : K) ≤ bounds.len := by exact_mod_cast hd
  push_cast
  nlinarith

end

end Stochopy.Props
