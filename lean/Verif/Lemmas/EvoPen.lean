import Verif.Spec.Evo
import Verif.Spec.Gauss
import Verif.Lemmas.EvoRun
import Verif.Lemmas.Penalize

/-! Runs with `Penalize`. -/

set_option linter.unusedSectionVars false

namespace Stochopy.Evo
open Spec
variable {K σ S : Type} [Field K] [LinearOrder K] [IsStrictOrderedRing K] [NumFns K] [LawfulNumFns K] [FloorRing K] {p n : Nat}
  {P : Par K n} {G : Gauss S K p n} {c : Cfg} {rng : S → σ} {fuel : Nat} {s0 : S} {o : Output σ K p n}

theorem reach_penInv (hs : IsArgsort P.srt) {L : St S K p n} (h : Reach P G c s0 L) : PenInv p L.pen := by
  induction h with
  | start => exact penInv_start
  | step _ hb ih =>
    obtain ⟨_, a, e, rows, s, h1, h2, h3, hm, h4, h5, rfl⟩ := body_ok hb
    show PenInv p e.2.2
    cases hp : P.penalized with
    | true => rw [evaluate_pen hp] at h2; exact penalize_inv hs ih h2
    | false => rw [evaluate_free hp] at h2; cases h2; exact ih

theorem fit_fin {fn : Vec K n → Val K} (hobj : P.obj.Faithful fn) (hf : FiniteValued fn) (X : Pop K p n) (i : Fin p) :
    ∃ k, P.obj.pop (fun i => unstandardize P.lower P.upper (X i)) i = .fin k := by
  rw [hobj.pop]; exact hf _

theorem reach_penFin {fn : Vec K n → Val K} (hobj : P.obj.Faithful fn) (hf : FiniteValued fn) (hs : IsArgsort P.srt)
    {L : St S K p n} (h : Reach P G c s0 L) : PenFin L.pen := by
  induction h with
  | start => exact penFin_start
  | step hL hb ih =>
    obtain ⟨_, a, e, rows, s, h1, h2, h3, hm, h4, h5, rfl⟩ := body_ok hb
    show PenFin e.2.2
    cases hp : P.penalized with
    | true =>
      rw [evaluate_pen hp] at h2
      exact (penalize_fin hs (fit_fin hobj hf) (reach_penInv hs hL).nonempty ih h2).1
    | false => rw [evaluate_free hp] at h2; cases h2; exact ih

theorem unstandardize_box {lower upper x : Vec K n} (hle : ∀ j, lower j ≤ upper j) (hx : ∀ j, -1 ≤ x j ∧ x j ≤ 1) :
    InBox lower upper (unstandardize lower upper x) := fun j => by
  have h1 := hx j
  have h2 := hle j
  unfold unstandardize
  constructor <;> nlinarith

/-- Strictly inside the box means strictly inside `[-1, 1]`. -/
theorem unstandardize_inside {lower upper x : Vec K n} {j : Fin n}
    (h : lower j < unstandardize lower upper x j ∧ unstandardize lower upper x j < upper j) : -1 < x j ∧ x j < 1 := by
  unfold unstandardize at h
  have hlt : lower j < upper j := h.1.trans h.2
  constructor <;> by_contra hc <;> push Not at hc
  · nlinarith
  · nlinarith

theorem body_value {fn : Vec K n → Val K} (hobj : P.obj.Faithful fn) (hs : IsArgsort P.srt) (hp : P.penalized = true)
    {M M' : St S K p n} {g : Gen K p n} (hM : Reach P G c s0 M) (h : body P G c M = .ok (M', g)) (i : Fin p) :
    ¬ g.fit i < fn (g.X i) := by
  obtain ⟨_, a, e, rows, s, h1, h2, h3, hm, h4, h5, hr⟩ := body_ok h
  cases hr
  rw [evaluate_pen hp] at h2
  have := penalize_ge hs (reach_penInv hs hM) h2 i
  rwa [hobj.pop] at this

theorem body_inside {fn : Vec K n → Val K} (hobj : P.obj.Faithful fn) (hf : FiniteValued fn) (hs : IsArgsort P.srt)
    (hp : P.penalized = true) {M M' : St S K p n} {g : Gen K p n} (hM : Reach P G c s0 M) (h : body P G c M = .ok (M', g))
    (i : Fin p) (hi : ∀ j, P.lower j < g.X i j ∧ g.X i j < P.upper j) : g.fit i = fn (g.X i) := by
  obtain ⟨_, a, e, rows, s, h1, h2, h3, hm, h4, h5, hr⟩ := body_ok h
  cases hr
  rw [evaluate_pen hp] at h2
  obtain ⟨hist, -, -, k3, -, -⟩ := penalize_ok h2
  have hF := (penalize_fin hs (fit_fin hobj hf) (reach_penInv hs hM).nonempty (reach_penFin hobj hf hs hM) h2).1
  have hin : ∀ j, -1 < clip (a.1 i) j ∧ clip (a.1 i) j < 1 := fun j => by
    have := hi j
    change P.lower j < unstandardize P.lower P.upper (e.2.1 i) j ∧ unstandardize P.lower P.upper (e.2.1 i) j < P.upper j at this
    rw [k3] at this
    exact unstandardize_inside this
  have := penalize_feasible hF h2 (clip_of_inside hin)
  rwa [hobj.pop] at this

theorem Completed.inBox {I : St S K p n → Prop} {gs : List (Gen K p n)} {g : Gen K p n} {L' L : St S K p n} {st : Int}
    (h : Completed P G c rng I o gs g L' L st) (hp : P.penalized = true) (hle : ∀ j, P.lower j ≤ P.upper j) :
    AllInBox P.lower P.upper o :=
  h.clipped hp (by linarith : (-1 : K) ≤ 1) fun _ => unstandardize_box hle

end Stochopy.Evo
