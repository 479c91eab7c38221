import Verif.Lemmas.MPIAgree
import Verif.Lemmas.CPSO

/-! Ranks of `cpso` that restart different particles. -/

set_option linter.unusedSectionVars false

namespace Stochopy.CPSO
open Proc
variable {K σ : Type} [AddZeroClass K] [One K] [Sub K] [Mul K] [Div K] [Neg K] [NatCast K] [IntCast K] [Pow K ℕ] [ArrayOps K] [LinearOrder K] {p n : Nat}
variable [IntParts K] [NumFns K]

/-- `g` is the least of the personal bests, and better than that of a restarted particle. -/
structure Least (v : Fin p → Val K) (g : Val K) : Prop where
  att : ∃ i, v i = g
  lb : ∀ i, g ≤ v i
  low : g < resetFit

/-- The personal bests after a selection. -/
def better (v c : Fin p → Val K) : Fin p → Val K := fun i => if c i < v i then c i else v i

theorem better_le_left {v c : Fin p → Val K} {i : Fin p} (h : v i ≠ .nan) : better v c i ≤ v i := by
  unfold better
  split_ifs with h1
  · exact Val.le_of_lt' h1
  · exact Val.le_refl' h

theorem better_le_right {v c : Fin p → Val K} {i : Fin p} (h : v i ≠ .nan) (hc : c i ≠ .nan) : better v c i ≤ c i := by
  unfold better
  split_ifs with h1
  · exact Val.le_refl' hc
  · exact (Val.not_lt_iff h hc).1 h1

theorem Least.better {v c : Fin p → Val K} {g : Val K} (h : Least v g) (hc : ∀ i, c i < resetFit) {i : Fin p}
    (hi : argmin (better v c) = .ok i) : Least (better v c) (better v c i) := by
  have hv : ∀ k, v k ≠ .nan := fun k => Val.ne_nan_right (h.lb k)
  have hn : ∀ k, CPSO.better v c k ≠ .nan := fun k => Val.ne_nan_left (better_le_left (hv k))
  obtain ⟨j, hj⟩ := h.att
  refine ⟨⟨i, rfl⟩, fun k => argmin_le hi (hn i) k, ?_⟩
  have h1 : CPSO.better v c i ≤ v j := Val.le_trans' (argmin_le hi (hn i) j) (better_le_left (hv j))
  exact Val.lt_of_le_of_lt' h1 (by rw [hj]; exact h.low)

theorem better_min_le {v v' c : Fin p → Val K} {g : Val K} (h : Least v g) (h' : Least v' g) (hc : ∀ i, c i < resetFit) {i : Fin p}
    (hi : argmin (better v c) = .ok i) (j : Fin p) : better v c i ≤ better v' c j := by
  have hv : ∀ k, v k ≠ .nan := fun k => Val.ne_nan_right (h.lb k)
  have hmin := (h.better hc hi).lb
  have hcase : better v' c j = c j ∨ better v' c j = v' j := by
    unfold better
    split_ifs
    · exact Or.inl rfl
    · exact Or.inr rfl
  rcases hcase with e | e
  · rw [e]
    exact Val.le_trans' (hmin j) (better_le_right (hv j) (Val.ne_nan_left_lt (hc j)))
  · rw [e]
    obtain ⟨k, hk⟩ := h.att
    refine Val.le_trans' (Val.le_trans' (hmin k) (better_le_left (hv k))) ?_
    rw [hk]
    exact h'.lb j

theorem selectionSync_least {it : Nat} {cand x x' : Pop K p n} {xbest xbest' : Vec K n} {xfun xfun' : Fin p → Val K} {maxiter : Int}
    {xtol : K} {ftol : Val K} {obj : Obj K n} {gf : Val K} (hc : ∀ i, obj.pop cand i < resetFit) (h : Least xfun gf) (h' : Least xfun' gf) :
    Same (fun r r' => r'.candfun = r.candfun ∧ r'.xbestfun = r.xbestfun ∧ StatusRel False r.status r'.status ∧
        Least r.xfun r.xbestfun ∧ Least r'.xfun r'.xbestfun)
      (selectionSync it cand xbest x xfun maxiter xtol ftol obj) (selectionSync it cand xbest' x' xfun' maxiter xtol ftol obj) := by
  obtain ⟨k, -⟩ := h.att
  obtain ⟨i, hi⟩ := argmin_ok (better xfun (obj.pop cand)) k.pos
  obtain ⟨j, hj⟩ := argmin_ok (better xfun' (obj.pop cand)) k.pos
  have heq : better xfun' (obj.pop cand) j = better xfun (obj.pop cand) i :=
    Val.le_antisymm' (better_min_le h' h hc hj i) (better_min_le h h' hc hi j)
  have hL := h.better hc hi
  have hL' := h'.better hc hj
  have hi' : argmin (fun i => if obj.pop cand i < xfun i then obj.pop cand i else xfun i) = .ok i := hi
  have hj' : argmin (fun i => if obj.pop cand i < xfun' i then obj.pop cand i else xfun' i) = .ok j := hj
  unfold selectionSync
  dsimp only
  rw [hi', hj']
  refine ⟨rfl, heq, ⟨?_, fun h => h.elim⟩, hL, hL'⟩
  dsimp only
  generalize distLe xbest _ xtol = d1
  generalize distLe xbest' _ xtol = d2
  have e1 : ∀ (v : Fin p → Val K) i, (if obj.pop cand i < v i then obj.pop cand i else v i) = better v (obj.pop cand) i := fun _ _ => rfl
  try simp only [e1]
  rw [heq]
  by_cases hf : better xfun (obj.pop cand) i ≤ ftol
  · right
    simp only [hf, decide_true, Bool.and_true, if_true]
    constructor <;> split_ifs <;> simp
  · left
    simp only [hf, decide_false, Bool.and_false, if_false]

/-- The ranks: the values are common, the personal bests are not. -/
structure Apart (s t : State σ K p n) : Prop where
  gfit : t.gfit = s.gfit
  pfit : t.pfit = s.pfit
  evals : t.evals = s.evals
  left : Least s.pbestfit s.gfit
  right : Least t.pbestfit t.gfit

theorem least_post [FewRestarts K p] {P : Par σ K n} (hsrt : IsArgsort P.argsort) (it : Nat) {s : State σ K p n}
    (h : Least s.pbestfit s.gfit) : Least (post P it s).pbestfit (post P it s).gfit := by
  obtain ⟨k, hk⟩ := h.att
  obtain ⟨⟨q, hq, hqf, -⟩, hall⟩ := post_particle (P := P) hsrt k.pos it s
  rw [(post_fields (P := P) it s).2.1]
  refine ⟨⟨q, ?_⟩, fun i => ?_, h.low⟩
  · rw [hqf]
    rcases hq k with h1 | h1
    · exact absurd h1 (Val.ne_nan_right (h.lb k))
    · rw [hk] at h1
      exact Val.le_antisymm' h1 (h.lb q)
  · rcases hall i with ⟨h1, -⟩ | ⟨-, h1, -⟩
    · rw [h1]; exact h.lb i
    · rw [h1]; exact Val.le_of_lt' h.low

theorem kept_apart [FewRestarts K p] {P : Par σ K n} (hsrt : IsArgsort P.argsort) {values : Pop K p n → Fin p → Val K}
    (hlow : ∀ x i, values x i < resetFit) : (alg P true).Kept values (rankStep P) Apart Apart False where
  step := by
    intro it s t h
    unfold rankStep
    refine (Agree.collective _ _).bind ?_
    rintro _ _ ⟨rfl, rfl⟩
    dsimp only
    rw [h.evals]
    refine (Agree.lift (selectionSync_least (gf := s.gfit) (fun i => ?_) h.left (by rw [← h.gfit]; exact h.right))).bind fun r r' hr => ?_
    · rw [given_pop]; exact hlow _ _
    · obtain ⟨h1, h2, h3, h4, h5⟩ := hr
      exact .ret ⟨⟨h2, h1, rfl, h4, h5⟩, h3⟩
  post := by
    intro it s t h
    obtain ⟨-, g1, e1, f1, -⟩ := post_fields (P := P) it s
    obtain ⟨-, g2, e2, f2, -⟩ := post_fields (P := P) it t
    refine ⟨?_, ?_, ?_, least_post hsrt it h.left, least_post hsrt it h.right⟩
    · show (post P it t).gfit = (post P it s).gfit
      rw [g1, g2, h.gfit]
    · show (post P it t).pfit = (post P it s).pfit
      rw [f1, f2, h.pfit]
    · show (post P it t).evals = (post P it s).evals
      rw [e1, e2, h.evals]
  looks := fun s t h => ⟨h.gfit, h.pfit, fun h => h.elim⟩

/-- What two ranks return. -/
def ShownValues (o o' : Output σ K p n) : Prop :=
  o'.res.vals = o.res.vals ∧ o'.cbs.map CB.vals = o.cbs.map CB.vals ∧ o'.evals = o.evals

theorem agree_values {env : Env} {R : Rng σ K} {srt : Argsort K} (hsrt : IsArgsort srt) {fuel : Nat} {a : Args K} [FewRestarts K a.p] (g g' : σ)
    {values : Pop K a.p a.ndim → Fin a.p → Val K} (hlow : ∀ x i, values x i < resetFit) :
    Agree values ShownValues (rank env R srt fuel a g) (rank env R srt fuel a g') := by
  unfold rank
  refine (Agree.refl (rel := fun _ _ => True) (fun _ => trivial) _).bind fun _ _ _ => ?_
  cases a.fn with
  | none => exact .fail
  | some fn =>
    dsimp only
    split_ifs
    · refine (Agree.refl (rel := fun _ _ => True) (fun _ => trivial) _).bind fun _ _ _ => ?_
      refine (Agree.refl (rel := Eq) (fun _ => rfl) _).bind ?_
      rintro cons _ rfl
      refine Agree.bind (rel := fun s t => Apart s t ∧ (alg (p := a.p)
          { R := R, argsort := srt, w := a.inertia, c1 := a.cognitivity, c2 := a.sociability, gamma := a.competitivity,
            cons := cons, lower := a.lower, upper := a.upper, maxiter := a.maxiter, xtol := a.xtol, ftol := a.ftol,
            obj := mpiObj env fn } true).Looks False s t) ?_ fun s t hs => ?_
      · unfold rankInit
        refine (Agree.collective _ _).bind ?_
        rintro w w' ⟨hw, hw'⟩
        have hl : ∀ k, w.2 k < resetFit := by
          intro k
          rw [hw]
          exact hlow _ k
        obtain rfl : w' = w := hw'.trans hw.symm
        refine Agree.bind (rel := fun i j => j = i ∧ argmin w'.2 = .ok i) ?_ ?_
        · refine Agree.lift ?_
          cases h : argmin w'.2 with
          | error e => rfl
          | ok i => exact ⟨rfl, rfl⟩
        · rintro _ i ⟨rfl, hi⟩
          have hL : Least w'.2 (w'.2 i) := by
            exact ⟨⟨i, rfl⟩, fun k => argmin_le hi (Val.ne_nan_left_lt (hl i)) k, hl i⟩
          exact .ret ⟨⟨rfl, rfl, rfl, hL, hL⟩, rfl, rfl, fun h => h.elim⟩
      · have hk := kept_apart (p := a.p) (P :=
          { R := R, argsort := srt, w := a.inertia, c1 := a.cognitivity, c2 := a.sociability, gamma := a.competitivity,
            cons := cons, lower := a.lower, upper := a.upper, maxiter := a.maxiter, xtol := a.xtol, ftol := a.ftol,
            obj := mpiObj env fn }) hsrt hlow
        refine (hk.run fuel hs.2 hs.1).bind fun r r' hr => .ret ?_
        obtain ⟨h1, h2, -⟩ := hr
        exact ⟨h2, h1.cbs, h1.s.evals⟩
    · exact .fail

end Stochopy.CPSO
