import Verif.Lemmas.Swarm
import Verif.Lemmas.Pool
import Verif.Spec.PSORun

/-! Runs of the particle swarms are the runs described in `Spec/PSORun.lean`. -/

set_option linter.unusedSectionVars false

namespace Stochopy.CPSO
open Spec Spec.PSO
variable {K σ : Type} [AddZeroClass K] [One K] [Sub K] [Mul K] [Div K] [Neg K] [NatCast K] [IntCast K] [Pow K ℕ] [ArrayOps K] [LinearOrder K] {p n : Nat}
variable {P : Par σ K n} {c : Setting σ K n}

theorem swarm_ext {s s' : Spec.PSO.Swarm K p n} (h1 : s.pos = s'.pos) (h2 : s.vel = s'.vel) (h3 : s.pool = s'.pool) : s = s' := by
  cases s; cases s'
  simp only at h1 h2 h3
  subst h1 h2 h3; rfl

theorem scale_unique {lower upper x v : Vec K n} {b b' : K} (h : Scale lower upper x v b) (h' : Scale lower upper x v b') : b = b' := by
  rcases h with ⟨a1, a2⟩ | ⟨a1, a2⟩ <;> rcases h' with ⟨b1, b2⟩ | ⟨b1, b2⟩
  · rw [a2, b2]
  · exact absurd a1 b1
  · exact absurd b1 a1
  · exact a2.unique b2

theorem move_unique {x v pb l r1 r2 x1 v1 x2 v2 : Vec K n} (h1 : Move c x v pb l r1 r2 x1 v1) (h2 : Move c x v pb l r1 r2 x2 v2) :
    x1 = x2 ∧ v1 = v2 := by
  obtain ⟨w, a1, a2, a3, a4⟩ := h1
  obtain ⟨w', b1, b2, b3, b4⟩ := h2
  have hw : w = w' := funext fun j => (a1 j).trans (b1 j).symm
  subst hw
  have hv : v1 = v2 := by
    by_cases hc : c.shrink
    · obtain ⟨b, e1, e2⟩ := a2 hc
      obtain ⟨b', e1', e2'⟩ := b2 hc
      rw [← scale_unique e1 e1'] at e2'
      exact funext fun j => (e2 j).trans (e2' j).symm
    · exact funext fun j => (a3 hc j).trans (b3 hc j).symm
  exact ⟨funext fun j => by rw [a4, b4, hv], hv⟩

theorem deferred_unique {s s1 s2 : Spec.PSO.Swarm K p n} {g g1 g2 : σ} (h1 : DeferredGeneration c s g s1 g1) (h2 : DeferredGeneration c s g s2 g2) :
    s1 = s2 ∧ g1 = g2 := by
  obtain ⟨r1, r2, ga, a1, a2, a3, a4⟩ := h1
  obtain ⟨r1', r2', ga', b1, b2, b3, b4⟩ := h2
  obtain ⟨rfl, rfl⟩ := Prod.mk.inj (a1.trans b1.symm)
  obtain ⟨rfl, rfl⟩ := Prod.mk.inj (a2.trans b2.symm)
  have hX : s1.pos = s2.pos := funext fun i => (move_unique (a3 i) (b3 i)).1
  rw [hX] at a4
  exact ⟨swarm_ext hX (funext fun i => (move_unique (a3 i) (b3 i)).2) (a4.unique b4), rfl⟩

theorem turn_unique {r1 r2 : Vec K n} {i : Fin p} {s s1 s2 : Spec.PSO.Swarm K p n} (h1 : Turn c r1 r2 i s s1) (h2 : Turn c r1 r2 i s s2) : s1 = s2 := by
  obtain ⟨m1, m2⟩ := move_unique h1.move h2.move
  have hq : ∀ q, s1.pos q = s2.pos q ∧ s1.vel q = s2.vel q := fun q => by
    by_cases h : q = i
    · rw [h]; exact ⟨m1, m2⟩
    · rw [(h1.others q h).1, (h1.others q h).2, (h2.others q h).1, (h2.others q h).2]; exact ⟨rfl, rfl⟩
  have ho := h1.offer
  rw [m1] at ho
  exact swarm_ext (funext fun q => (hq q).1) (funext fun q => (hq q).2) (ho.unique h2.offer)

theorem immediate_unique {s s1 s2 : Spec.PSO.Swarm K p n} {g g1 g2 : σ} {T T' : Nat → Spec.PSO.Swarm K p n}
    (h1 : ImmediateGeneration c s g s1 g1 T) (h2 : ImmediateGeneration c s g s2 g2 T') : s1 = s2 ∧ g1 = g2 ∧ ∀ k ≤ p, T k = T' k := by
  obtain ⟨r1, r2, ga, a1, a2, a3, a4, a5⟩ := h1
  obtain ⟨r1', r2', ga', b1, b2, b3, b4, b5⟩ := h2
  obtain ⟨rfl, rfl⟩ := Prod.mk.inj (a1.trans b1.symm)
  obtain ⟨rfl, rfl⟩ := Prod.mk.inj (a2.trans b2.symm)
  have key : ∀ k ≤ p, T k = T' k := by
    intro k
    induction k with
    | zero => exact fun _ => a3.trans b3.symm
    | succ k ih =>
      intro hk
      have h5 := a5 ⟨k, hk⟩
      have h6 := b5 ⟨k, hk⟩
      dsimp only at h5 h6
      rw [ih (by omega)] at h5
      exact turn_unique h5 h6
  exact ⟨by rw [← a4, ← b4, key p le_rfl], rfl, key⟩

theorem generation_unique (hp : 0 < p) {it : Nat} {s s1 s2 : Spec.PSO.Swarm K p n} {g g1 g2 : σ} {st1 st2 : Option Int}
    (h1 : Generation c it s g s1 g1 st1) (h2 : Generation c it s g s2 g2 st2) : s1 = s2 ∧ g1 = g2 ∧ st1 = st2 := by
  rcases h1 with ⟨a1, a2, a3⟩ | ⟨a1, T, a2, a3⟩ <;> rcases h2 with ⟨b1, b2, b3⟩ | ⟨b1, T', b2, b3⟩
  · obtain ⟨rfl, rfl⟩ := deferred_unique a2 b2
    exact ⟨rfl, rfl, a3.unique b3⟩
  · exact absurd a1 b1
  · exact absurd b1 a1
  · obtain ⟨rfl, rfl, hT⟩ := immediate_unique a2 b2
    have h3 := a3 ⟨p - 1, by omega⟩ (by dsimp only; omega)
    have h4 := b3 ⟨p - 1, by omega⟩ (by dsimp only; omega)
    rw [hT _ (by dsimp only; omega)] at h3
    exact ⟨rfl, rfl, h3.unique h4⟩

theorem first_unique {fn : Vec K n → Val K} {X : Pop K p n} {s s' : Spec.PSO.Swarm K p n} (h : Spec.PSO.First fn X s) (h' : Spec.PSO.First fn X s') :
    s = s' :=
  swarm_ext (h.pos.trans h'.pos.symm) (funext fun i => funext fun j => (h.vel i j).trans (h'.vel i j).symm) (h.pool.unique h'.pool)

section
variable [IntParts K] [NumFns K]

theorem restarted_unique {nw : Nat} {s s1 s2 : Spec.PSO.Swarm K p n} {g g1 g2 : σ} (h1 : Restarted c nw s g s1 g1)
    (h2 : Restarted c nw s g s2 g2) : s1 = s2 ∧ g1 = g2 := by
  have key : ∀ q, s1.pos q = s2.pos q ∧ s1.vel q = s2.vel q ∧ s1.pool.X q = s2.pool.X q ∧ s1.pool.fit q = s2.pool.fit q := by
    intro q
    have hk : c.sort p s.pool.fit ((c.sort p s.pool.fit).symm q) = q := Equiv.apply_symm_apply _ _
    set k := (c.sort p s.pool.fit).symm q
    by_cases h : k.val + nw < p
    · obtain ⟨a1, a2, a3, a4⟩ := h1.kept k q hk h
      obtain ⟨b1, b2, b3, b4⟩ := h2.kept k q hk h
      rw [a1, a2, a3, a4, b1, b2, b3, b4]; exact ⟨rfl, rfl, rfl, rfl⟩
    · have hkp := k.2
      obtain ⟨a1, a2, a3, a4⟩ := h1.fresh k q ⟨p - 1 - k.val, by omega⟩ hk (by dsimp only; omega)
      obtain ⟨b1, b2, b3, b4⟩ := h2.fresh k q ⟨p - 1 - k.val, by omega⟩ hk (by dsimp only; omega)
      have e : s1.pos q = s2.pos q := funext fun j => (a1 j).trans (b1 j).symm
      rw [a3, a4, b3, b4, e]
      exact ⟨rfl, funext fun j => (a2 j).trans (b2 j).symm, rfl, rfl⟩
  refine ⟨swarm_ext (funext fun q => (key q).1) (funext fun q => (key q).2.1)
    (Spec.Pool.ext' (funext fun q => (key q).2.2.1) (funext fun q => (key q).2.2.2) ?_ ?_), h1.rng.trans h2.rng.symm⟩
  · rw [h1.leader.1, h2.leader.1]
  · rw [h1.leader.2, h2.leader.2]

theorem due_unique {it : Nat} {s : Spec.PSO.Swarm K p n} {nw nw' : Nat} (h : Due c it s nw) (h' : Due c it s nw') : nw = nw' := by
  obtain ⟨-, γ, a1, -, -, a2⟩ := h
  obtain ⟨-, γ', b1, -, -, b2⟩ := h'
  obtain rfl := Option.some.inj (a1.symm.trans b1)
  have := a2.trans b2.symm
  omega

/-- The description determines everything that can be observed. -/
theorem run_unique {x0 : Option (Pop K p n)} {g : σ} {rep : Reporting} {S M S' M' : Nat → Spec.PSO.Swarm K p n} {gs hs gs' hs' : Nat → σ}
    {nit nit' : Nat} {st st' : Int} {o o' : Output σ K p n} (h : Spec.PSO.Run c x0 g rep S M gs hs nit st o)
    (h' : Spec.PSO.Run c x0 g rep S' M' gs' hs' nit' st' o') : o = o' := by
  obtain ⟨X, s1, s2⟩ := h.start
  obtain ⟨X', s1', s2'⟩ := h'.start
  obtain ⟨rfl, e2⟩ := s1.unique s1'
  have e3 := first_unique s2 s2'
  have hM : ∀ {S M : Nat → Spec.PSO.Swarm K p n} {gs hs : Nat → σ} {nit : Nat} {st : Int} {o : Output σ K p n},
      Spec.PSO.Run c x0 g rep S M gs hs nit st o → ∀ k, k + 1 < nit →
      (∃ nw, 0 < k ∧ Due c (k + 1) (S k) nw ∧ Restarted c nw (S k) (gs k) (M k) (hs k)) ∨
      ((k = 0 ∨ ∀ nw, ¬ Due c (k + 1) (S k) nw) ∧ M k = S k ∧ hs k = gs k) := by
    intro S M gs hs nit st o h k hk
    by_cases hd : k = 0 ∨ ∀ nw, ¬ Due c (k + 1) (S k) nw
    · exact Or.inr ⟨hd, h.norestart k hk hd⟩
    · rw [not_or, not_forall] at hd
      obtain ⟨h0, nw, hnw⟩ := hd
      rw [not_not] at hnw
      exact Or.inl ⟨nw, by omega, hnw, h.restart k nw (by omega) hk hnw⟩
  obtain ⟨rfl, rfl, key⟩ := sequence_unique (T := Spec.PSO.Swarm K p n × σ) (f := fun k => (S k, gs k)) (f' := fun k => (S' k, gs' k))
    (G := fun it a b s => ∃ m h, ((∃ nw, 1 < it ∧ Due c it a.1 nw ∧ Restarted c nw a.1 a.2 m h) ∨
      ((it = 1 ∨ ∀ nw, ¬ Due c it a.1 nw) ∧ m = a.1 ∧ h = a.2)) ∧ Generation c (it + 1) m h b.1 b.2 s)
    (fun it s s1 s2 st1 st2 h1 h2 => by
      obtain ⟨m1, r1, a1, a2⟩ := h1
      obtain ⟨m2, r2, b1, b2⟩ := h2
      have hm : m1 = m2 ∧ r1 = r2 := by
        rcases a1 with ⟨nw, c1, c2, c3⟩ | ⟨c1, c2⟩ <;> rcases b1 with ⟨nw', d1, d2, d3⟩ | ⟨d1, d2⟩
        · obtain rfl := due_unique c2 d2
          exact restarted_unique c3 d3
        · rcases d1 with d1 | d1
          · omega
          · exact absurd c2 (d1 nw)
        · rcases c1 with c1 | c1
          · omega
          · exact absurd d2 (c1 nw')
        · rw [c2.1, c2.2, d2.1, d2.2]; exact ⟨rfl, rfl⟩
      obtain ⟨rfl, rfl⟩ := hm
      obtain ⟨c1, c2, c3⟩ := generation_unique (by have := h.size; omega) a2 b2
      exact ⟨Prod.ext c1 c2, c3⟩)
    (by rw [e2, e3]) h.atleast h'.atleast
    (fun k hk => ⟨M k, hs k, by
      rcases hM h k hk with ⟨nw, d1, d2⟩ | ⟨d1, d2⟩
      · exact Or.inl ⟨nw, by omega, d2⟩
      · exact Or.inr ⟨d1.imp (fun h => by omega) id, d2⟩, h.generation k hk⟩)
    (fun k hk => ⟨M' k, hs' k, by
      rcases hM h' k hk with ⟨nw, d1, d2⟩ | ⟨d1, d2⟩
      · exact Or.inl ⟨nw, by omega, d2⟩
      · exact Or.inr ⟨d1.imp (fun h => by omega) id, d2⟩, h'.generation k hk⟩)
  have key' : ∀ k < nit, S k = S' k ∧ gs k = gs' k := fun k hk => by
    have := key k hk
    simp only [Prod.mk.injEq] at this
    exact this
  have h2 := h.atleast
  refine Output.ext' (Reports.unique (by omega) h.report (by rw [e3]; exact h'.report) fun k hk => ?_) ?_ ?_ ?_
  · rw [(key' k hk).1]; exact ⟨rfl, rfl, rfl, rfl, rfl⟩
  · rw [h.evaluated, h'.evaluated]
    apply List.flatMap_congr
    intro k hk
    rw [(key' k (List.mem_range.1 hk)).1]
  · by_cases hd : c.deferred
    · rw [h.given.1 hd, h'.given.1 hd]
    · rw [h.given.2 hd, h'.given.2 hd, (key' (nit - 1) (by omega)).1]
  · rw [h.rng, h'.rng, (key' (nit - 1) (by omega)).2]

end

/-! ## The model satisfies the description -/

/-- The parameters of the model are those of the setting. -/
structure Fits (c : Setting σ K n) (sync : Bool) (P : Par σ K n) : Prop where
  R : P.R = c.R
  sort : P.argsort = c.sort
  deferred : c.deferred ↔ sync = true
  w : P.w = c.inertia
  c1 : P.c1 = c.cognitivity
  c2 : P.c2 = c.sociability
  gamma : P.gamma = c.competitivity
  cons : P.cons = .shrink ↔ c.shrink
  lower : P.lower = c.lower
  upper : P.upper = c.upper
  maxiter : P.maxiter = c.maxiter
  xtol : P.xtol = c.xtol
  ftol : P.ftol = c.ftol
  obj : P.obj.Faithful c.fn

/-- The swarm of a state. -/
def swarmOf (s : State σ K p n) : Spec.PSO.Swarm K p n :=
  { pos := s.X, vel := s.V, pool := { X := s.pbest, fit := s.pbestfit, best := s.gbest, bestfit := s.gfit } }

theorem scale_shrinkBeta (lower upper X V : Vec K n) : Scale lower upper X V (shrinkBeta lower upper X V) := by
  set bl := (List.finRange n).filterMap fun j => if X j + V j < lower j then some ((lower j - X j) / V j) else none with hbl
  set bu := (List.finRange n).filterMap fun j => if upper j < X j + V j then some ((upper j - X j) / V j) else none with hbu
  have hl : ∀ t, t ∈ bl ↔ ∃ j, X j + V j < lower j ∧ t = (lower j - X j) / V j := by
    intro t
    rw [hbl, List.mem_filterMap]
    constructor
    · rintro ⟨j, -, h⟩
      split_ifs at h with hj
      exact ⟨j, hj, (Option.some.inj h).symm⟩
    · rintro ⟨j, hj, rfl⟩
      exact ⟨j, List.mem_finRange j, by rw [if_pos hj]⟩
  have hu : ∀ t, t ∈ bu ↔ ∃ j, upper j < X j + V j ∧ t = (upper j - X j) / V j := by
    intro t
    rw [hbu, List.mem_filterMap]
    constructor
    · rintro ⟨j, -, h⟩
      split_ifs at h with hj
      exact ⟨j, hj, (Option.some.inj h).symm⟩
    · rintro ⟨j, hj, rfl⟩
      exact ⟨j, List.mem_finRange j, by rw [if_pos hj]⟩
  have key : ∀ b, (b ∈ bl ∨ b ∈ bu) → (∀ t ∈ bl, b ≤ t) → (∀ t ∈ bu, b ≤ t) → Scale lower upper X V b := by
    intro b hb h1 h2
    right
    constructor
    · intro hin
      rcases hb with hb | hb
      · obtain ⟨j, hj, -⟩ := (hl b).1 hb
        exact absurd (hin j).1 (not_le.2 hj)
      · obtain ⟨j, hj, -⟩ := (hu b).1 hb
        exact absurd (hin j).2 (not_le.2 hj)
    · constructor
      · rcases hb with hb | hb
        · obtain ⟨j, hj⟩ := (hl b).1 hb
          exact ⟨j, Or.inl hj⟩
        · obtain ⟨j, hj⟩ := (hu b).1 hb
          exact ⟨j, Or.inr hj⟩
      · rintro t ⟨j, hj | hj⟩
        · exact h1 t ((hl t).2 ⟨j, hj⟩)
        · exact h2 t ((hu t).2 ⟨j, hj⟩)
  unfold shrinkBeta
  simp only [← hbl, ← hbu]
  cases hml : bl.min? with
  | none =>
    have hbl0 : bl = [] := List.min?_eq_none_iff.1 hml
    cases hmu : bu.min? with
    | none =>
      have hbu0 : bu = [] := List.min?_eq_none_iff.1 hmu
      left
      refine ⟨fun j => ⟨?_, ?_⟩, rfl⟩
      · by_contra hj
        have := (hl _).2 ⟨j, not_le.1 hj, rfl⟩
        rw [hbl0] at this; simp at this
      · by_contra hj
        have := (hu _).2 ⟨j, not_le.1 hj, rfl⟩
        rw [hbu0] at this; simp at this
    | some u =>
      have h := List.min?_eq_some_iff.1 hmu
      exact key u (Or.inr h.1) (by rw [hbl0]; simp) h.2
  | some l =>
    have h := List.min?_eq_some_iff.1 hml
    cases hmu : bu.min? with
    | none =>
      have hbu0 : bu = [] := List.min?_eq_none_iff.1 hmu
      exact key l (Or.inl h.1) h.2 (by rw [hbu0]; simp)
    | some u =>
      have h' := List.min?_eq_some_iff.1 hmu
      refine key (min l u) ?_ (fun c hc => le_trans (min_le_left _ _) (h.2 c hc)) (fun c hc => le_trans (min_le_right _ _) (h'.2 c hc))
      rcases min_choice l u with e | e
      · rw [e]; exact Or.inl h.1
      · rw [e]; exact Or.inr h'.1

theorem move_of {sync : Bool} (hF : Fits c sync P) {x v pb l r1 r2 : Vec K n} :
    Move c x v pb l r1 r2 (mutation P x v pb l r1 r2).1 (mutation P x v pb l r1 r2).2 := by
  set w : Vec K n := fun j => P.w * v j + P.c1 * r1 j * (pb j - x j) + P.c2 * r2 j * (l j - x j) with hw
  have hm : mutation P x v pb l r1 r2 = consRow P.cons P.lower P.upper x w := rfl
  rw [hm]
  cases hc : P.cons with
  | none =>
    have hs : ¬ c.shrink := by rw [← hF.cons, hc]; simp
    exact ⟨w, fun j => by rw [hw, ← hF.w, ← hF.c1, ← hF.c2], fun h => absurd h hs, fun _ _ => rfl, fun j => rfl⟩
  | shrink =>
    have hs : c.shrink := hF.cons.1 hc
    refine ⟨w, fun j => by rw [hw, ← hF.w, ← hF.c1, ← hF.c2], fun _ => ⟨shrinkBeta P.lower P.upper x w, ?_, fun j => rfl⟩,
      fun h => absurd hs h, fun j => rfl⟩
    rw [← hF.lower, ← hF.upper]
    exact scale_shrinkBeta _ _ _ _

theorem generation_sync (hF : Fits c true P) {it : Nat} {s s' : State σ K p n} {st : Option Int} (h : stepSync P it s = .ok (s', st)) :
    Generation c it (swarmOf s) s.rng (swarmOf s') s'.rng st ∧ s'.evals = s.evals ++ List.ofFn s'.X ∧
      s'.pfit = (fun i => c.fn (s'.X i)) ∧ s'.caller = s.caller := by
  obtain ⟨r, hr, rfl, rfl⟩ := stepSync_ok h
  obtain ⟨h1, h2, h3⟩ := offerAll_of (s := (swarmOf s).pool) hr hF.obj
  refine ⟨Or.inl ⟨hF.deferred.2 rfl, ⟨(drawMat P.R.rand p n s.rng).1, (drawMat P.R.rand p n (drawMat P.R.rand p n s.rng).2).1,
    (drawMat P.R.rand p n s.rng).2, ?_, ?_, fun i => move_of hF, h1⟩, ?_⟩, rfl, h3, rfl⟩
  · rw [← hF.R]
  · rw [← hF.R]
  · rw [← hF.maxiter, ← hF.xtol, ← hF.ftol]; exact h2

theorem generation_async (hF : Fits c false P) {it : Nat} {s s' : State σ K p n} {st : Option Int} (h : stepAsync P it s = .ok (s', st)) :
    Generation c it (swarmOf s) s.rng (swarmOf s') s'.rng st ∧ s'.evals = s.evals ++ List.ofFn s'.X ∧
      s'.pfit = (fun i => c.fn (s'.X i)) ∧ s'.aliased = s.aliased ∧
      (s.caller = (if s.aliased then s.caller.map fun _ => s.X else s.caller) →
        s'.caller = if s.aliased then s.caller.map fun _ => s'.X else s.caller) := by
  obtain ⟨r, hr, rfl, rfl⟩ := stepAsync_ok h
  set D1 := drawMat P.R.rand p n s.rng with hD1
  set D2 := drawMat P.R.rand p n D1.2 with hD2
  set T : Nat → State σ K p n × Option Int := fun k => ((List.finRange p).take k).foldl (rowAsync P D1.1 D2.1) ({ s with rng := D2.2 }, none) with hT
  have t0 : T 0 = ({ s with rng := D2.2 }, none) := rfl
  have t1 : T p = r := by
    rw [hT, hr]
    dsimp only
    rw [List.take_of_length_le (by simp)]
  have t2 : ∀ i : Fin p, T (i + 1) = rowAsync P D1.1 D2.1 (T i) i := by
    intro i
    rw [hT]
    dsimp only
    rw [List.take_succ_eq_append_getElem (by simp), List.foldl_append]
    simp
  have hrow : ∀ i : Fin p, Turn c (D1.1 i) (D2.1 i) i (swarmOf (T i).1) (swarmOf (T (i + 1)).1) ∧ (T (i + 1)).1.rng = (T i).1.rng ∧
      (T (i + 1)).1.evals = (T i).1.evals ++ [(T (i + 1)).1.X i] ∧
      (T (i + 1)).1.pfit = Function.update (T i).1.pfit i (c.fn ((T (i + 1)).1.X i)) ∧
      (T (i + 1)).1.aliased = (T i).1.aliased ∧ (T (i + 1)).1.caller = writeThrough (T i).1.aliased (T i).1.caller (T (i + 1)).1.X ∧
      FirstHolds (stopImmediate c.fn c.maxiter c.xtol c.ftol it (swarmOf (T i).1).pool i ((T (i + 1)).1.X i))
        (if (T (i + 1)).2 = none ∧ P.maxiter ≤ (it : Int) then some (-1) else (T (i + 1)).2) := by
    intro i
    rw [t2 i]
    set S := (T i).1 with hS
    set m := mutation P (S.X i) (S.V i) (S.pbest i) S.gbest (D1.1 i) (D2.1 i) with hm
    have hXi : (rowAsync P D1.1 D2.1 (T i) i).1.X = Function.update S.X i m.1 := rfl
    have hVi : (rowAsync P D1.1 D2.1 (T i) i).1.V = Function.update S.V i m.2 := rfl
    obtain ⟨h1, h2, h3⟩ := offer_of (y := m.1) (s := (swarmOf S).pool) (xtol := P.xtol) (ftol := P.ftol) (i := i) hF.obj
    refine ⟨⟨?_, fun q hq => ?_, ?_⟩, rfl, ?_, ?_, rfl, rfl, ?_⟩
    · show Move c _ _ _ _ _ _ ((rowAsync P D1.1 D2.1 (T i) i).1.X i) ((rowAsync P D1.1 D2.1 (T i) i).1.V i)
      rw [hXi, hVi, Function.update_self, Function.update_self]
      exact move_of hF
    · show (rowAsync P D1.1 D2.1 (T i) i).1.X q = _ ∧ (rowAsync P D1.1 D2.1 (T i) i).1.V q = _
      rw [hXi, hVi, Function.update_of_ne hq, Function.update_of_ne hq]
      exact ⟨rfl, rfl⟩
    · show Pool.Offer c.fn _ i ((rowAsync P D1.1 D2.1 (T i) i).1.X i) _
      rw [hXi, Function.update_self]
      exact h1
    · rw [hXi, Function.update_self]; rfl
    · rw [hXi, Function.update_self]
      exact congrArg (Function.update S.pfit i) h2
    · rw [hXi, Function.update_self, ← hF.maxiter, ← hF.xtol, ← hF.ftol]
      exact h3 P.maxiter it
  -- later turns keep what is settled
  have hkeep : ∀ k ≤ p, ∀ i : Fin p, i.val < k → (T k).1.X i = (T (i + 1)).1.X i := by
    intro k
    induction k with
    | zero => intro _ i hi; omega
    | succ k ih =>
      intro hk i hi
      by_cases h : i.val = k
      · rw [h]
      · have := (hrow ⟨k, hk⟩).1.others i (fun e => h (congrArg Fin.val e))
        rw [← ih (by omega) i (by omega)]
        exact this.1
  have hX : ∀ i : Fin p, r.1.X i = (T (i + 1)).1.X i := fun i => by rw [← t1]; exact hkeep p le_rfl i i.2
  have hrng : ∀ k ≤ p, (T k).1.rng = D2.2 := by
    intro k
    induction k with
    | zero => intro _; rw [t0]
    | succ k ih => intro hk; rw [(hrow ⟨k, hk⟩).2.1]; exact ih (by omega)
  refine ⟨Or.inr ⟨fun h => ?_, fun k => swarmOf (T k).1, ⟨D1.1, D2.1, D1.2, ?_, ?_, ?_, ?_, fun i => (hrow i).1⟩, fun i hi => ?_⟩, ?_, ?_, ?_, ?_⟩
  · have := hF.deferred.1 h; cases this
  · rw [← hF.R]
  · rw [← hF.R, ← t1, hrng p le_rfl]
  · dsimp only; rw [t0]; rfl
  · dsimp only; rw [t1]
  · have := (hrow i).2.2.2.2.2.2
    rw [← hX i, hi, t1] at this
    exact this
  · have key : ∀ k ≤ p, (T k).1.evals = s.evals ++ (List.ofFn r.1.X).take k := by
      intro k
      induction k with
      | zero => intro _; rw [t0]; simp
      | succ k ih =>
        intro hk
        have h3 := (hrow ⟨k, hk⟩).2.2.1
        have h4 := hX ⟨k, hk⟩
        dsimp only at h3 h4
        rw [h3, ih (by omega), List.append_assoc, List.take_succ_eq_append_getElem (by simpa using hk), ← h4]
        simp
    have := key p le_rfl
    rw [t1, List.take_of_length_le (by simp)] at this
    exact this
  · have key : ∀ k ≤ p, ∀ i : Fin p, i.val < k → (T k).1.pfit i = c.fn (r.1.X i) := by
      intro k
      induction k with
      | zero => intro _ i hi; omega
      | succ k ih =>
        intro hk i hi
        have h3 := (hrow ⟨k, hk⟩).2.2.2.1
        dsimp only at h3
        rw [h3]
        by_cases hik : i = ⟨k, hk⟩
        · rw [hik, Function.update_self, hX]
        · rw [Function.update_of_ne hik]
          exact ih (by omega) i (by have : i.val ≠ k := fun h => hik (Fin.ext h); omega)
    have := key p le_rfl
    rw [t1] at this
    exact funext fun i => this i i.2
  · have key : ∀ k ≤ p, (T k).1.aliased = s.aliased := by
      intro k
      induction k with
      | zero => intro _; rw [t0]
      | succ k ih => intro hk; rw [(hrow ⟨k, hk⟩).2.2.2.2.1]; exact ih (by omega)
    rw [← t1]; exact key p le_rfl
  · intro hs
    have key : ∀ k ≤ p, (T k).1.aliased = s.aliased ∧ (T k).1.caller = if s.aliased then s.caller.map fun _ => (T k).1.X else s.caller := by
      intro k
      induction k with
      | zero => intro _; rw [t0]; exact ⟨rfl, hs⟩
      | succ k ih =>
        intro hk
        obtain ⟨e1, e2⟩ := ih (by omega)
        obtain ⟨-, -, -, -, h3, h4, -⟩ := hrow ⟨k, hk⟩
        dsimp only at h3 h4
        refine ⟨h3.trans e1, ?_⟩
        rw [h4, e1, e2]
        unfold writeThrough
        split_ifs
        · rw [Option.map_map]; rfl
        · rfl
    rw [← t1]; exact (key p le_rfl).2

section
variable [IntParts K] [NumFns K] [FewRestarts K p]

theorem swarmSmall_iff {X : Pop K p n} {gbest : Vec K n} {dl : K} : swarmSmall X gbest dl = true ↔
    ∃ m, (∀ i, NumFns.sqrt (ArrayOps.sum fun j => (X i j - gbest j) ^ 2) ≤ NumFns.sqrt (ArrayOps.sum fun j => (X m j - gbest j) ^ 2)) ∧
      NumFns.sqrt (ArrayOps.sum fun j => (X m j - gbest j) ^ 2) / NumFns.sqrt (4 * (n : K)) < dl := by
  unfold swarmSmall
  set d : Fin p → K := fun i => NumFns.sqrt (ArrayOps.sum fun j => (X i j - gbest j) ^ 2) with hd
  constructor
  · intro h
    cases hm : (List.ofFn d).max? with
    | none => rw [hm] at h; cases h
    | some r =>
      rw [hm] at h
      rw [List.max?_eq_some_iff] at hm
      obtain ⟨m, rfl⟩ := (List.mem_ofFn' d r).1 hm.1
      exact ⟨m, fun i => hm.2 _ ((List.mem_ofFn' d _).2 ⟨i, rfl⟩), of_decide_eq_true h⟩
  · rintro ⟨m, h1, h2⟩
    have : (List.ofFn d).max? = some (d m) := by
      rw [List.max?_eq_some_iff]
      refine ⟨(List.mem_ofFn' d _).2 ⟨m, rfl⟩, ?_⟩
      rintro b hb
      obtain ⟨i, rfl⟩ := (List.mem_ofFn' d b).1 hb
      exact h1 i
    rw [this]
    exact decide_eq_true h2

theorem restarted_of {sync : Bool} (hF : Fits c sync P) {nw : Nat} (hnw : nw ≤ p) (s : State σ K p n) :
    Restarted c nw (swarmOf s) s.rng (swarmOf (resetWorst P nw s)) (resetWorst P nw s).rng := by
  have hk : ∀ k q : Fin p, c.sort p (swarmOf s).pool.fit k = q → (P.argsort p s.pbestfit).symm q = k := by
    intro k q h
    rw [Equiv.symm_apply_eq, hF.sort]; exact h.symm
  refine ⟨⟨rfl, rfl⟩, fun k q h hlt => ?_, fun k q t h heq => ?_, by rw [← hF.R]; rfl⟩
  · have hn : restartPos P.argsort s.pbestfit nw q = none := by
      unfold restartPos
      dsimp only
      rw [hk k q h, dif_neg (by omega)]
    simp only [swarmOf, resetWorst, hn]
    exact ⟨trivial, trivial, trivial, trivial⟩
  · have hn : restartPos P.argsort s.pbestfit nw q = some t := by
      unfold restartPos
      dsimp only
      rw [hk k q h, dif_pos (by have := t.2; omega)]
      congr 1
      exact Fin.ext (by dsimp only; omega)
    simp only [swarmOf, resetWorst, hn]
    rw [← hF.R, ← hF.lower, ← hF.upper]
    exact ⟨fun j => rfl, fun j => trivial, trivial, rfl⟩

theorem post_of {sync : Bool} (hF : Fits c sync P) (hp : 2 ≤ p) (it : Nat) (s : State σ K p n) :
    (∀ nw, Due c it (swarmOf s) nw → Restarted c nw (swarmOf s) s.rng (swarmOf (post P it s)) (post P it s).rng) ∧
    ((∀ nw, ¬ Due c it (swarmOf s) nw) → post P it s = s) := by
  constructor
  · rintro nw ⟨h0, γ, hγ, hγ0, hsm, hfl⟩
    have hnum : numRestart p it P.maxiter γ = nw := by
      rw [hF.maxiter]; exact hfl.symm
    have hpost : post P it s = resetWorst P nw s := by
      unfold post
      rw [hF.gamma, hγ]
      dsimp only
      rw [if_neg hγ0]
      unfold restart
      rw [if_pos, if_pos (by rw [hnum]; omega), hnum]
      · rfl
      · unfold delta
        rw [hF.maxiter]
        exact swarmSmall_iff.2 hsm
    rw [hpost]
    have := numRestart_le (p := p) (it := it) (maxiter := P.maxiter) (gamma := γ) (by omega)
    exact restarted_of hF (by rw [hnum] at this; omega) s
  · intro h
    rcases post_cases (P := P) it s with hc | ⟨γ, hγ, hγ0, hc⟩
    · exact hc
    · rw [hc]
      unfold restart
      split_ifs with h1 h2
      · refine absurd ⟨by omega, γ, by rw [← hF.gamma]; exact hγ, hγ0, ?_, ?_⟩ (h (numRestart p it P.maxiter γ).toNat)
        · unfold delta at h1
          rw [hF.maxiter] at h1
          exact swarmSmall_iff.1 h1
        · rw [Int.toNat_of_nonneg h2.le, hF.maxiter]; rfl
      · rfl
      · rfl

theorem run_of {sync : Bool} (hF : Fits c sync P) (hp : 2 ≤ p) {x0 : Option (Pop K p n)} {g : σ} {s0 : State σ K p n}
    (h0 : init P x0 g = .ok s0) {cfg : Cfg} {fuel : Nat} {r : Result K n} {L : Loop (State σ K p n) K p n}
    (h : (alg P sync).run cfg fuel s0 = .ok (r, L)) :
    ∃ S M gs hs, Spec.PSO.Run c x0 g { callback := cfg.hasCallback, history := cfg.returnAll, points := cfg.nout } S M gs hs r.nit r.status
      (mkOut r L State.evals State.caller State.rng) := by
  obtain ⟨i, hi, hs0⟩ := init_ok h0
  obtain ⟨f, f0, hn, hlast, hnext, hrep⟩ := run_sequence (ev := State.evals) (caller := State.caller) (rng := State.rng) h
  set M : Nat → State σ K p n := fun k => if k = 0 then f k else post P (k + 1) (f k) with hM
  have hstep : ∀ k, k + 1 < r.nit → (alg (p := p) P sync).step (k + 2) (M k) = .ok (f (k + 1), if k + 2 = r.nit then some r.status else none) := by
    intro k hk
    have h1 := hnext k hk
    unfold Alg.next at h1
    rw [hM]
    rw [← h1]
    congr 1
    by_cases h : k = 0
    · subst h; rfl
    · dsimp only
      rw [if_neg h, if_neg (by omega)]; rfl
  have hM1 : ∀ k, (M k).evals = (f k).evals ∧ (M k).aliased = (f k).aliased := by
    intro k
    rw [hM]
    dsimp only
    split_ifs
    · exact ⟨rfl, rfl⟩
    · exact ⟨(post_fields _ _).2.2.1, (post_fields _ _).2.2.2.2⟩
  have hpcall : ∀ it (s : State σ K p n), (s.aliased = true → s.caller = s.caller.map fun _ => s.X) →
      (post P it s).caller = if s.aliased then s.caller.map fun _ => (post P it s).X else s.caller := by
    intro it s hs
    rcases post_cases (P := P) it s with hc | ⟨γ, -, -, hc⟩
    · rw [hc]
      split_ifs with h
      · exact hs h
      · rfl
    · rw [hc]
      unfold restart
      split_ifs with h1 h2 h3 h3 h3
      · simp only [resetWorst, writeThrough, h3, if_true]
      · simp only [resetWorst, writeThrough, h3, if_false, Bool.false_eq_true]
      · exact hs h3
      · rfl
      · exact hs h3
      · rfl
  have hgen : ∀ k, k + 1 < r.nit → Generation c (k + 2) (swarmOf (M k)) (M k).rng (swarmOf (f (k + 1))) (f (k + 1)).rng
      (if k + 2 = r.nit then some r.status else none) ∧ (f (k + 1)).evals = (f k).evals ++ List.ofFn (f (k + 1)).X ∧
      (f (k + 1)).pfit = (fun i => c.fn ((f (k + 1)).X i)) := by
    intro k hk
    have h1 := hstep k hk
    rw [alg_step] at h1
    cases sync with
    | true =>
      obtain ⟨a1, a2, a3, -⟩ := generation_sync hF h1
      exact ⟨a1, by rw [a2, (hM1 k).1], a3⟩
    | false =>
      obtain ⟨a1, a2, a3, -⟩ := generation_async hF h1
      exact ⟨a1, by rw [a2, (hM1 k).1], a3⟩
  have hlog : ∀ k < r.nit, (f k).evals = (List.range (k + 1)).flatMap fun k => List.ofFn (f k).X := by
    intro k
    induction k with
    | zero => intro _; rw [f0, hs0]; simp [f0, hs0]
    | succ k ih =>
      intro hk
      rw [(hgen k hk).2.1, ih (by omega), List.range_succ (n := k + 1), List.flatMap_append]
      simp
  have hpf : ∀ k < r.nit, (f k).pfit = fun i => c.fn ((f k).X i) := by
    intro k hk
    cases k with
    | zero => rw [f0, hs0]; exact funext fun i => hF.obj.pop _ i
    | succ k => exact (hgen k hk).2.2
  have hdef : c.deferred → ∀ k < r.nit, (f k).caller = x0 ∧ (0 < k → (f k).aliased = false) := by
    intro hd k
    have hsync : sync = true := hF.deferred.1 hd
    induction k with
    | zero => intro _; rw [f0, hs0]; exact ⟨rfl, fun h => by omega⟩
    | succ k ih =>
      intro hk
      have h1 := hstep k hk
      rw [alg_step, if_pos hsync] at h1
      obtain ⟨r', -, -, e⟩ := stepSync_ok h1
      have hfa : (f (k + 1)).aliased = false := by rw [e]
      have hfc : (f (k + 1)).caller = (M k).caller := by rw [e]
      refine ⟨?_, fun _ => hfa⟩
      rw [hfc, hM]
      dsimp only
      split_ifs with hk0
      · exact (ih (by omega)).1
      · rw [hpcall _ _ (by rw [(ih (by omega)).2 (by omega)]; simp), (ih (by omega)).2 (by omega)]
        simpa using (ih (by omega)).1
  have himm : ¬ c.deferred → ∀ k < r.nit, (f k).aliased = x0.isSome ∧ (f k).caller = x0.map fun _ => (f k).X := by
    intro hd k
    have hsync : sync = false := by
      cases sync with
      | false => rfl
      | true => exact absurd (hF.deferred.2 rfl) hd
    induction k with
    | zero => intro _; rw [f0, hs0]; cases x0 <;> exact ⟨rfl, rfl⟩
    | succ k ih =>
      intro hk
      obtain ⟨e1, e2⟩ := ih (by omega)
      subst hsync
      have h1 := hstep k hk
      rw [alg_step, if_neg (by simp)] at h1
      obtain ⟨-, -, -, a3, a4⟩ := generation_async hF h1
      have e3 : (M k).aliased = x0.isSome := (hM1 k).2.trans e1
      have e4 : (M k).caller = x0.map fun _ => (M k).X := by
        rw [hM]
        dsimp only
        split_ifs with hk0
        · exact e2
        · rw [hpcall _ _ (by intro _; rw [e2]; cases x0 <;> rfl), e1, e2]
          cases x0 <;> rfl
      refine ⟨a3.trans e3, ?_⟩
      rw [a4 (by rw [e3, e4]; cases x0 <;> rfl), e3, e4]
      cases x0 <;> rfl
  refine ⟨fun k => swarmOf (f k), fun k => swarmOf (M k), fun k => (f k).rng, fun k => (M k).rng, ⟨s0.X, ?_, ?_⟩, hp, hn,
    fun k nw hk0 hk hdue => ?_, fun k hk hd => ?_, fun k hk => (hgen k hk).1, ?_, ?_, ⟨fun hd => ?_, fun hd => ?_⟩, ?_⟩
  · rw [f0, hs0, ← hF.R, ← hF.lower, ← hF.upper]
    cases x0 with
    | some x => exact Or.inl ⟨rfl, rfl⟩
    | none => exact lhs_first P.R P.lower P.upper g
  · rw [f0]
    refine ⟨rfl, fun i j => by rw [hs0]; rfl, ⟨by rw [hs0]; rfl, fun i => ?_, i, ?_, ?_, ?_⟩⟩
    · rw [hs0]; exact hF.obj.pop _ i
    · rw [hs0]; exact firstBest_of_argmin hi
    · rw [hs0]; rfl
    · rw [hs0]; rfl
  · have : M k = post P (k + 1) (f k) := by rw [hM]; exact if_neg (by omega)
    rw [this]
    exact (post_of hF hp (k + 1) (f k)).1 nw hdue
  · have : M k = f k := by
      rw [hM]
      dsimp only
      split_ifs with hk0
      · rfl
      · exact (post_of hF hp (k + 1) (f k)).2 (hd.resolve_left hk0)
    rw [this]
    exact ⟨rfl, rfl⟩
  · show L.s.evals = _
    rw [hlast, hlog _ (by omega)]
    have : r.nit - 1 + 1 = r.nit := by omega
    rw [this]
    rfl
  · have e : (swarmOf (f 0)).pool.best = (alg P sync).rec0Best s0 := by rw [f0]; rfl
    rw [e]
    refine hrep.congr (by omega) (fun k hk => ⟨rfl, rfl, rfl, ?_, hpf k hk⟩)
    by_cases h0 : k = 0
    · subst h0; rw [if_pos rfl]; rfl
    · rw [if_neg h0]; rfl
  · show L.s.caller = _
    rw [hlast]; exact (hdef hd _ (by omega)).1
  · show L.s.caller = _
    rw [hlast]; exact (himm hd _ (by omega)).2
  · show L.s.rng = _
    rw [hlast]

end

end Stochopy.CPSO
