import Mathlib.Data.Finset.Sort
import Verif.Lemmas.Evolution
import Verif.Lemmas.Pool
import Verif.Spec.DERun

/-! Runs of differential evolution are the runs described in `Spec/DERun.lean`. -/

set_option linter.unusedSectionVars false

namespace Stochopy.DE
open Spec Spec.DE
variable {K σ : Type} [AddZeroClass K] [One K] [Sub K] [Mul K] [Div K] [Neg K] [NatCast K] [IntCast K] [Pow K ℕ] [ArrayOps K] [LinearOrder K] {p n : Nat}
variable {P : Par σ K p n} {c : Setting σ K n}

theorem others_del (i : Fin p) : Others i (del i) := by
  refine ⟨fun a b h => ?_, del_ne i⟩
  have h' : a.val < b.val := h
  show (del i a).val < (del i b).val
  unfold del
  split_ifs <;> simp <;> omega

theorem others_unique {i : Fin p} {e e' : Fin (p - 1) → Fin p} (h : Others i e) (h' : Others i e') : e = e' := by
  have hc : (Finset.univ.erase i).card = p - 1 := by rw [Finset.card_erase_of_mem (Finset.mem_univ i), Finset.card_univ, Fintype.card_fin]
  rw [Finset.orderEmbOfFin_unique hc (fun x => Finset.mem_erase.2 ⟨h.2 x, Finset.mem_univ _⟩) h.1,
    Finset.orderEmbOfFin_unique hc (fun x => Finset.mem_erase.2 ⟨h'.2 x, Finset.mem_univ _⟩) h'.1]

theorem prefix_unique {α : Type} {l l1 l2 : List α} (h1 : l1 <+: l) (h2 : l2 <+: l) (h : l1.length = l2.length) : l1 = l2 := by
  rw [List.prefix_iff_eq_take.1 h1, List.prefix_iff_eq_take.1 h2, h]

theorem mutation_unique {name : String} {F : K} {l : List (Fin p)} {X : Pop K p n} {b v v' : Vec K n} (h : Mutation name F l X b v)
    (h' : Mutation name F l X b v') : v = v' := by
  unfold Mutation at h h'
  rcases h with ⟨rfl, h⟩ | ⟨rfl, h⟩ | ⟨rfl, h⟩ | ⟨rfl, h⟩ <;> simp at h' <;> funext j
  · obtain ⟨a1, a2, a3, hl, hv⟩ := h
    obtain ⟨b1, b2, b3, hl', hv'⟩ := h'
    have := prefix_unique hl hl' rfl
    simp at this; obtain ⟨rfl, rfl, rfl⟩ := this
    rw [hv, hv']
  · obtain ⟨a1, a2, a3, a4, a5, hl, hv⟩ := h
    obtain ⟨b1, b2, b3, b4, b5, hl', hv'⟩ := h'
    have := prefix_unique hl hl' rfl
    simp at this; obtain ⟨rfl, rfl, rfl, rfl, rfl⟩ := this
    rw [hv, hv']
  · obtain ⟨a1, a2, hl, hv⟩ := h
    obtain ⟨b1, b2, hl', hv'⟩ := h'
    have := prefix_unique hl hl' rfl
    simp at this; obtain ⟨rfl, rfl⟩ := this
    rw [hv, hv']
  · obtain ⟨a1, a2, a3, a4, hl, hv⟩ := h
    obtain ⟨b1, b2, b3, b4, hl', hv'⟩ := h'
    have := prefix_unique hl hl' rfl
    simp at this; obtain ⟨rfl, rfl, rfl, rfl⟩ := this
    rw [hv, hv']

theorem trial_unique {i : Fin p} {X : Pop K p n} {b : Vec K n} {π : Equiv.Perm (Fin (p - 1))} {ι : Nat} {r u u' y y' : Vec K n}
    (hu : c.redraw → u = u') (h : Trial c i X b π ι r u y) (h' : Trial c i X b π ι r u' y') : y = y' := by
  obtain ⟨e, v, w, a1, a2, a3, a4⟩ := h
  obtain ⟨e', v', w', b1, b2, b3, b4⟩ := h'
  obtain rfl := others_unique a1 b1
  obtain rfl := mutation_unique a2 b2
  have hw : w = w' := funext fun j => by
    by_cases hj : j.val = ι ∨ r j ≤ c.CR
    · rw [(a3 j).1 hj, (b3 j).1 hj]
    · rw [(a3 j).2 hj, (b3 j).2 hj]
  subst hw
  funext j
  by_cases hj : c.redraw ∧ ¬ (c.lower j ≤ w j ∧ w j ≤ c.upper j)
  · rw [(a4 j).1 hj, (b4 j).1 hj, hu hj.1]
  · rw [(a4 j).2 hj, (b4 j).2 hj]

theorem deferred_unique {s s1 s2 : Pool K p n} {g g1 g2 : σ} {y1 y2 : Pop K p n} (h1 : DeferredGeneration c s g y1 s1 g1)
    (h2 : DeferredGeneration c s g y2 s2 g2) : y1 = y2 ∧ s1 = s2 ∧ g1 = g2 := by
  obtain ⟨r, u, π, ι, ga, gb, gc, a1, a2, a3, a4, a5, a6, a7⟩ := h1
  obtain ⟨r', u', π', ι', ga', gb', gc', b1, b2, b3, b4, b5, b6, b7⟩ := h2
  obtain ⟨rfl, rfl⟩ := Prod.mk.inj (a1.trans b1.symm)
  obtain ⟨rfl, rfl⟩ := Prod.mk.inj (a2.trans b2.symm)
  obtain ⟨rfl, rfl⟩ := Prod.mk.inj (a3.trans b3.symm)
  have hu : c.redraw → u = u' := fun h => (Prod.mk.inj ((a4 h).trans (b4 h).symm)).1
  have hy : y1 = y2 := funext fun i => trial_unique (fun h => by rw [hu h]) (a6 i) (b6 i)
  subst hy
  refine ⟨rfl, a7.unique b7, ?_⟩
  by_cases h : c.redraw
  · exact (Prod.mk.inj ((a4 h).trans (b4 h).symm)).2
  · rw [a5 h, b5 h]

theorem turn_unique {r : Vec K n} {i : Fin p} {s s1 s2 : Pool K p n} {g g1 g2 : σ} {y1 y2 : Vec K n} (h1 : Turn c r i s g y1 s1 g1)
    (h2 : Turn c r i s g y2 s2 g2) : y1 = y2 ∧ s1 = s2 ∧ g1 = g2 := by
  obtain ⟨u, π, ι, ga, gb, a1, a2, a3, a4, a5, a6⟩ := h1
  obtain ⟨u', π', ι', ga', gb', b1, b2, b3, b4, b5, b6⟩ := h2
  obtain ⟨rfl, rfl⟩ := Prod.mk.inj (a1.trans b1.symm)
  obtain ⟨rfl, rfl⟩ := Prod.mk.inj (a2.trans b2.symm)
  have hu : c.redraw → u = u' := fun h => (Prod.mk.inj ((a3 h).trans (b3 h).symm)).1
  obtain rfl := trial_unique hu a5 b5
  refine ⟨rfl, a6.unique b6, ?_⟩
  by_cases h : c.redraw
  · exact (Prod.mk.inj ((a3 h).trans (b3 h).symm)).2
  · rw [a4 h, b4 h]

theorem immediate_unique {s s1 s2 : Pool K p n} {g g1 g2 : σ} {y1 y2 : Pop K p n} {T T' : Nat → Pool K p n}
    (h1 : ImmediateGeneration c s g y1 s1 g1 T) (h2 : ImmediateGeneration c s g y2 s2 g2 T') :
    y1 = y2 ∧ s1 = s2 ∧ g1 = g2 ∧ ∀ k ≤ p, T k = T' k := by
  obtain ⟨r, G, a1, a2, a3, a4, a5⟩ := h1
  obtain ⟨r', G', b1, b2, b3, b4, b5⟩ := h2
  obtain ⟨rfl, hg⟩ := Prod.mk.inj (a1.trans b1.symm)
  have key : ∀ k ≤ p, T k = T' k ∧ G k = G' k := by
    intro k
    induction k with
    | zero => exact fun _ => ⟨a2.trans b2.symm, hg⟩
    | succ k ih =>
      intro hk
      obtain ⟨h3, h4⟩ := ih (by omega)
      have h5 := a5 ⟨k, hk⟩
      have h6 := b5 ⟨k, hk⟩
      dsimp only at h5 h6
      rw [h3, h4] at h5
      exact (turn_unique h5 h6).2
  refine ⟨funext fun i => ?_, ?_, ?_, fun k hk => (key k hk).1⟩
  · have h5 := a5 i
    rw [(key i i.2.le).1, (key i i.2.le).2] at h5
    exact (turn_unique h5 (b5 i)).1
  · rw [← a3, ← b3, (key p le_rfl).1]
  · rw [← a4, ← b4, (key p le_rfl).2]

theorem generation_unique (hp : 0 < p) {it : Nat} {s s1 s2 : Pool K p n} {g g1 g2 : σ} {y1 y2 : Pop K p n} {st1 st2 : Option Int}
    (h1 : Generation c it s g y1 s1 g1 st1) (h2 : Generation c it s g y2 s2 g2 st2) : y1 = y2 ∧ s1 = s2 ∧ g1 = g2 ∧ st1 = st2 := by
  rcases h1 with ⟨a1, a2, a3⟩ | ⟨a1, T, a2, a3⟩ <;> rcases h2 with ⟨b1, b2, b3⟩ | ⟨b1, T', b2, b3⟩
  · obtain ⟨rfl, rfl, rfl⟩ := deferred_unique a2 b2
    exact ⟨rfl, rfl, rfl, a3.unique b3⟩
  · exact absurd a1 b1
  · exact absurd b1 a1
  · obtain ⟨rfl, rfl, rfl, hT⟩ := immediate_unique a2 b2
    have h3 := a3 ⟨p - 1, by omega⟩ (by dsimp only; omega)
    have h4 := b3 ⟨p - 1, by omega⟩ (by dsimp only; omega)
    rw [hT _ (by dsimp only; omega)] at h3
    exact ⟨rfl, rfl, rfl, h3.unique h4⟩

/-- The description determines everything that can be observed. -/
theorem run_unique {x0 : Option (Pop K p n)} {g : σ} {rep : Reporting} {S S' : Nat → Pool K p n} {gs gs' : Nat → σ}
    {ys ys' : Nat → Pop K p n} {nit nit' : Nat} {st st' : Int} {o o' : Output σ K p n} (h : Spec.DE.Run c x0 g rep S gs ys nit st o)
    (h' : Spec.DE.Run c x0 g rep S' gs' ys' nit' st' o') : o = o' := by
  obtain ⟨e1, e2⟩ := h.start.unique h'.start
  have hf := h.first
  rw [e1] at hf
  have e3 := hf.unique h'.first
  obtain ⟨rfl, rfl, key⟩ := sequence_unique (T := Pool K p n × σ × Pop K p n) (f := fun k => (S k, gs k, ys k))
    (f' := fun k => (S' k, gs' k, ys' k)) (G := fun it a b s => Generation c (it + 1) a.1 a.2.1 b.2.2 b.1 b.2.1 s) (fun it s s1 s2 st1 st2 h1 h2 => by
      obtain ⟨a1, a2, a3, a4⟩ := generation_unique (by have := h.size; omega) h1 h2
      exact ⟨Prod.ext a2 (Prod.ext a3 a1), a4⟩)
    (by rw [e1, e2, e3]) h.atleast h'.atleast h.generation h'.generation
  have key' : ∀ k < nit, S k = S' k ∧ gs k = gs' k ∧ ys k = ys' k := fun k hk => by
    have := key k hk
    simp only [Prod.mk.injEq] at this
    exact this
  have h2 := h.atleast
  refine Output.ext' (Reports.unique (by omega) h.report (by rw [e3]; exact h'.report) fun k hk => ?_) ?_ ?_ ?_
  · obtain ⟨k1, k2, k3⟩ := key' k hk
    rw [k1, k3]; exact ⟨rfl, rfl, rfl, rfl, rfl⟩
  · rw [h.evaluated, h'.evaluated]
    apply List.flatMap_congr
    intro k hk
    rw [(key' k (List.mem_range.1 hk)).2.2]
  · rw [h.given, h'.given, (key' (nit - 1) (by omega)).1]
  · rw [h.rng, h'.rng, (key' (nit - 1) (by omega)).2.1]

/-! ## The model satisfies the description -/

/-- The parameters of the model are those of the setting. -/
structure Fits (c : Setting σ K n) (sync : Bool) (P : Par σ K p n) : Prop where
  R : P.R = c.R
  deferred : c.deferred ↔ sync = true
  strat : strategyMap c.strategy = .ok P.strat
  F : P.F = c.F
  CR : P.CR = c.CR
  cons : P.cons = .random ↔ c.redraw
  lower : P.lower = c.lower
  upper : P.upper = c.upper
  maxiter : P.maxiter = c.maxiter
  xtol : P.xtol = c.xtol
  ftol : P.ftol = c.ftol
  obj : P.obj.Faithful c.fn

/-- The pool of a state. -/
def poolOf (s : State σ K p n) : Pool K p n := { X := s.X, fit := s.pbestfit, best := s.gbest, bestfit := s.gfit }

theorem prefix_ofFn {m : Nat} {d : Fin m → Fin p} {l : List (Fin p)} (h : ∀ k (hk : k < l.length), ∃ hm : k < m, l[k] = d ⟨k, hm⟩) :
    l <+: List.ofFn d := by
  rw [List.prefix_iff_getElem]
  have hl : l.length ≤ (List.ofFn d).length := by
    by_contra hlt
    rw [List.length_ofFn] at hlt
    obtain ⟨hm, -⟩ := h m (by omega)
    omega
  refine ⟨hl, fun k hk => ?_⟩
  obtain ⟨hm, e⟩ := h k hk
  rw [e, List.getElem_ofFn]

theorem mutation_of_strategy {name : String} {strat : Strategy K p n} (hs : strategyMap name = .ok strat) {d : Fin (p - 1) → Fin p}
    {F : K} {X : Pop K p n} {b v : Vec K n} (h : strat d F X b = .ok v) : Mutation name F (List.ofFn d) X b v := by
  unfold strategyMap at hs
  unfold Mutation
  by_cases h1 : name = "rand1bin"
  · rw [if_pos h1] at hs; cases hs
    simp only [rand1bin, bind_ok_iff] at h
    obtain ⟨a, ha, b, hb, c, hc, h⟩ := h
    obtain ⟨ka, rfl⟩ := donor_ok ha
    obtain ⟨kb, rfl⟩ := donor_ok hb
    obtain ⟨kc, rfl⟩ := donor_ok hc
    refine Or.inl ⟨h1, _, _, _, prefix_ofFn (fun k hk => ?_), fun j => by rw [← Except.ok.inj h]⟩
    simp only [List.length_cons, List.length_nil] at hk
    refine ⟨by omega, ?_⟩
    interval_cases k <;> rfl
  rw [if_neg h1] at hs
  by_cases h2 : name = "rand2bin"
  · rw [if_pos h2] at hs; cases hs
    simp only [rand2bin, bind_ok_iff] at h
    obtain ⟨a, ha, b, hb, c, hc, d, hd, e, he, h⟩ := h
    obtain ⟨ka, rfl⟩ := donor_ok ha
    obtain ⟨kb, rfl⟩ := donor_ok hb
    obtain ⟨kc, rfl⟩ := donor_ok hc
    obtain ⟨kd, rfl⟩ := donor_ok hd
    obtain ⟨ke, rfl⟩ := donor_ok he
    refine Or.inr (Or.inl ⟨h2, _, _, _, _, _, prefix_ofFn (fun k hk => ?_), fun j => by rw [← Except.ok.inj h]⟩)
    simp only [List.length_cons, List.length_nil] at hk
    refine ⟨by omega, ?_⟩
    interval_cases k <;> rfl
  rw [if_neg h2] at hs
  by_cases h3 : name = "best1bin"
  · rw [if_pos h3] at hs; cases hs
    simp only [best1bin, bind_ok_iff] at h
    obtain ⟨a, ha, b, hb, h⟩ := h
    obtain ⟨ka, rfl⟩ := donor_ok ha
    obtain ⟨kb, rfl⟩ := donor_ok hb
    refine Or.inr (Or.inr (Or.inl ⟨h3, _, _, prefix_ofFn (fun k hk => ?_), fun j => by rw [← Except.ok.inj h]⟩))
    simp only [List.length_cons, List.length_nil] at hk
    refine ⟨by omega, ?_⟩
    interval_cases k <;> rfl
  rw [if_neg h3] at hs
  by_cases h4 : name = "best2bin"
  · rw [if_pos h4] at hs; cases hs
    simp only [best2bin, bind_ok_iff] at h
    obtain ⟨a, ha, b, hb, c, hc, d, hd, h⟩ := h
    obtain ⟨ka, rfl⟩ := donor_ok ha
    obtain ⟨kb, rfl⟩ := donor_ok hb
    obtain ⟨kc, rfl⟩ := donor_ok hc
    obtain ⟨kd, rfl⟩ := donor_ok hd
    refine Or.inr (Or.inr (Or.inr ⟨h4, _, _, _, _, prefix_ofFn (fun k hk => ?_), fun j => by rw [← Except.ok.inj h]⟩))
    simp only [List.length_cons, List.length_nil] at hk
    refine ⟨by omega, ?_⟩
    interval_cases k <;> rfl
  rw [if_neg h4] at hs
  cases hs

/-- Crossover and repair of a mutant give a trial vector. -/
theorem trial_of {sync : Bool} (hF : Fits c sync P) {i : Fin p} {X : Pop K p n} {b v : Vec K n} {π : Equiv.Perm (Fin (p - 1))} {ι : Nat}
    {r u : Vec K n} (hv : P.strat (donors i π) P.F X b = .ok v) :
    Trial c i X b π ι r u (match P.cons with
      | .none => crossover ι r P.CR v (X i)
      | .random => randomRow P.lower P.upper (crossover ι r P.CR v (X i)) u) := by
  rw [hF.F] at hv
  refine ⟨del i, v, crossover ι r P.CR v (X i), others_del i, mutation_of_strategy hF.strat hv, fun j => ?_, fun j => ?_⟩
  · rw [← hF.CR]
    unfold crossover
    exact ⟨fun h => by rw [if_pos h], fun h => by rw [if_neg h]⟩
  · cases hc : P.cons with
    | none =>
      have : ¬ c.redraw := by rw [← hF.cons, hc]; simp
      exact ⟨fun h => absurd h.1 this, fun _ => rfl⟩
    | random =>
      have hr : c.redraw := hF.cons.1 hc
      rw [← hF.lower, ← hF.upper]
      dsimp only
      unfold randomRow unif
      constructor
      · intro h
        rw [if_pos]
        by_contra h'
        rw [not_or, not_lt, not_lt] at h'
        exact h.2 h'
      · intro h
        rw [if_neg]
        intro h'
        refine h ⟨hr, fun h2 => ?_⟩
        rcases h' with h' | h'
        · exact absurd h2.1 (not_le.2 h')
        · exact absurd h2.2 (not_le.2 h')

/-- A deferred iteration. -/
theorem generation_sync (hF : Fits c true P) {it : Nat} {s s' : State σ K p n} {st : Option Int} (h : stepSync P it s = .ok (s', st)) :
    ∃ ys, Generation c it (poolOf s) s.rng ys (poolOf s') s'.rng st ∧ s'.evals = s.evals ++ List.ofFn ys ∧
      s'.pfit = (fun i => c.fn (ys i)) ∧ s'.caller = s.caller.map fun _ => s'.X := by
  obtain ⟨U, r, hU, hr, rfl, rfl⟩ := stepSync_ok h
  obtain ⟨h1, h2, h3⟩ := offerAll_of (s := poolOf s) hr hF.obj
  refine ⟨U.1, Or.inl ⟨hF.deferred.2 rfl, ?_, ?_⟩, rfl, h3, rfl⟩
  · unfold candSync at hU
    rw [bind_ok_iff] at hU
    obtain ⟨V, hV, hU⟩ := hU
    rw [bind_ok_iff] at hU
    obtain ⟨-, -, hU⟩ := hU
    rw [seqFin_ok_iff] at hV
    have hU := (Except.ok.inj hU).symm
    unfold DeferredGeneration
    rw [← hF.R]
    generalize hdr : drawMat P.R.rand p n s.rng = dr at *
    generalize hdp : drawVec (P.R.perm (p - 1)) p dr.2 = dp at *
    generalize hdi : drawVec (P.R.randint n) p dp.2 = di at *
    generalize hdu : drawMat P.R.rand p n di.2 = du
    refine ⟨dr.1, du.1, dp.1, di.1, dr.2, dp.2, di.2, rfl, hdp.symm, hdi.symm, fun hr => ?_, fun hr => ?_, fun i => ?_, h1⟩
    · rw [hdu, hU]
      unfold consPop
      rw [hF.cons.2 hr, hdu]
    · rw [← hF.cons] at hr
      rw [hU]
      unfold consPop
      cases hc : P.cons with
      | none => rfl
      | random => exact absurd hc hr
    · have := trial_of (ι := di.1 i) (r := dr.1 i) (u := du.1 i) hF (hV i)
      rw [hU]
      unfold consPop
      cases hc : P.cons with
      | none => rw [hc] at this; exact this
      | random => rw [hc] at this; dsimp only; rw [hdu]; exact this
  · rw [← hF.maxiter, ← hF.xtol, ← hF.ftol]; exact h2

/-- An immediate iteration. -/
theorem generation_async (hF : Fits c false P) (hp : 0 < p) {it : Nat} {s s' : State σ K p n} {st : Option Int}
    (h : stepAsync P it s = .ok (s', st)) :
    ∃ ys, Generation c it (poolOf s) s.rng ys (poolOf s') s'.rng st ∧ s'.evals = s.evals ++ List.ofFn ys ∧
      s'.pfit = (fun i => c.fn (ys i)) ∧ s'.caller = s.caller.map fun _ => s'.X := by
  obtain ⟨st0, hf, rfl⟩ := stepAsync_ok h
  obtain ⟨T, t0, t1, t2⟩ := foldlM_chain _ hf
  rw [List.length_finRange] at t1
  simp only [List.getElem_finRange, List.length_finRange] at t2
  have hrow : ∀ i : Fin p, ∃ U : Vec K n × σ, candAsync P ((drawMat P.R.rand p n s.rng).1 i) i (T i).1.X (T i).1.gbest (T i).1.rng = .ok U ∧
      Turn c ((drawMat P.R.rand p n s.rng).1 i) i (poolOf (T i).1) (T i).1.rng U.1 (poolOf (T (i + 1)).1) (T (i + 1)).1.rng ∧
      (T (i + 1)).1.evals = (T i).1.evals ++ [U.1] ∧ (T (i + 1)).1.pfit = Function.update (T i).1.pfit i (c.fn U.1) ∧
      (T (i + 1)).1.caller = (T i).1.caller.map (fun _ => (T (i + 1)).1.X) ∧
      FirstHolds (stopImmediate c.fn c.maxiter c.xtol c.ftol it (poolOf (T i).1) i U.1)
        (if (T (i + 1)).2 = none ∧ P.maxiter ≤ (it : Int) then some (-1) else (T (i + 1)).2) := by
    intro i
    obtain ⟨U, r, hU, hr, hT⟩ := rowAsync_ok (t2 i i.2)
    obtain ⟨h1, h2, h3⟩ := offer_of (y := U.1) (s := poolOf (T i).1) (xtol := P.xtol) (ftol := P.ftol) (i := i) hF.obj
    refine ⟨U, hU, ?_, ?_⟩
    · unfold candAsync at hU
      rw [bind_ok_iff] at hU
      obtain ⟨V, hV, hU⟩ := hU
      rw [bind_ok_iff] at hU
      obtain ⟨-, -, hU⟩ := hU
      have hU := (Except.ok.inj hU).symm
      unfold Turn
      rw [← hF.R]
      generalize hdp : P.R.perm (p - 1) (T i).1.rng = dp at *
      generalize hdi : P.R.randint n dp.2 = di at *
      generalize hdu : drawVec P.R.rand n di.2 = du
      have hg : (T (i + 1)).1.rng = U.2 := by rw [hT]
      rw [hg]
      refine ⟨du.1, dp.1, di.1, dp.2, di.2, rfl, hdi.symm, fun hr => ?_, fun hr => ?_, ?_, ?_⟩
      · rw [hdu, hU]
        unfold consOne
        rw [hF.cons.2 hr, hdu]
      · rw [← hF.cons] at hr
        rw [hU]
        unfold consOne
        cases hc : P.cons with
        | none => rfl
        | random => exact absurd hc hr
      · have := trial_of (ι := di.1) (r := (drawMat P.R.rand p n s.rng).1 i) (u := du.1) hF hV
        rw [hU]
        unfold consOne
        cases hc : P.cons with
        | none => rw [hc] at this; exact this
        | random => rw [hc] at this; dsimp only; rw [hdu]; exact this
      · rw [hT, hr]; exact h1
    · rw [hT]
      refine ⟨rfl, ?_, rfl, ?_⟩
      · rw [hr]; exact congrArg (Function.update (T i).1.pfit i) h2
      · rw [← hF.maxiter, ← hF.xtol, ← hF.ftol, hr]
        exact h3 P.maxiter it
  choose U hU1 hU2 hU3 hU4 hU5 hU6 using hrow
  have hend : T p = (s', st0) := t1
  refine ⟨fun i => (U i).1, Or.inr ⟨fun h => ?_, fun k => poolOf (T k).1, ⟨(drawMat P.R.rand p n s.rng).1, fun k => (T k).1.rng, ?_, ?_, ?_, ?_, hU2⟩,
    fun i hi => ?_⟩, ?_, ?_, ?_⟩
  · have := hF.deferred.1 h; cases this
  · dsimp only; rw [← hF.R, t0]
  · dsimp only; rw [t0]; rfl
  · dsimp only; rw [hend]
  · dsimp only; rw [hend]
  · have := hU6 i
    rw [hi, hend] at this
    exact this
  · have key : ∀ k ≤ p, (T k).1.evals = s.evals ++ (List.ofFn fun i => (U i).1).take k := by
      intro k
      induction k with
      | zero => intro _; rw [t0]; simp
      | succ k ih =>
        intro hk
        have := hU3 ⟨k, hk⟩
        dsimp only at this
        rw [this, ih (by omega), List.append_assoc, List.take_succ_eq_append_getElem (by simpa using hk)]
        simp
    have := key p le_rfl
    rw [hend, List.take_of_length_le (by simp)] at this
    exact this
  · have key : ∀ k ≤ p, ∀ i : Fin p, i.val < k → (T k).1.pfit i = c.fn (U i).1 := by
      intro k
      induction k with
      | zero => intro _ i hi; omega
      | succ k ih =>
        intro hk i hi
        have := hU4 ⟨k, hk⟩
        dsimp only at this
        rw [this]
        by_cases hik : i = ⟨k, hk⟩
        · rw [hik]; simp
        · rw [Function.update_of_ne hik]
          exact ih (by omega) i (by have : i.val ≠ k := fun h => hik (Fin.ext h); omega)
    have := key p le_rfl
    rw [hend] at this
    exact funext fun i => this i i.2
  · have key : ∀ k, 1 ≤ k → k ≤ p → (T k).1.caller = s.caller.map fun _ => (T k).1.X := by
      intro k h1
      induction k with
      | zero => omega
      | succ k ih =>
        intro hk
        have := hU5 ⟨k, hk⟩
        dsimp only at this
        rw [this]
        rcases Nat.eq_zero_or_pos k with h0 | h0
        · subst h0; rw [t0]
        · rw [ih h0 (by omega), Option.map_map]; rfl
    have := key p hp le_rfl
    rw [hend] at this
    exact this

/-- A whole run. -/
theorem run_of {sync : Bool} (hF : Fits c sync P) (hp : 2 ≤ p) {x0 : Option (Pop K p n)} {g : σ} {s0 : State σ K p n}
    (h0 : init P x0 g = .ok s0) {cfg : Cfg} {fuel : Nat} {r : Result K n} {L : Loop (State σ K p n) K p n}
    (h : (alg P sync).run cfg fuel s0 = .ok (r, L)) :
    ∃ S gs ys, Spec.DE.Run c x0 g { callback := cfg.hasCallback, history := cfg.returnAll, points := cfg.nout } S gs ys r.nit r.status
      (mkOut r L State.evals State.caller State.rng) := by
  obtain ⟨i, hi, hs0⟩ := init_ok h0
  obtain ⟨f, f0, hn, hlast, hnext, hrep⟩ := run_sequence (ev := State.evals) (caller := State.caller) (rng := State.rng) h
  have hgen : ∀ k, k + 1 < r.nit → ∃ ys, Generation c (k + 2) (poolOf (f k)) (f k).rng ys (poolOf (f (k + 1))) (f (k + 1)).rng
      (if k + 2 = r.nit then some r.status else none) ∧ (f (k + 1)).evals = (f k).evals ++ List.ofFn ys ∧
      (f (k + 1)).pfit = (fun i => c.fn (ys i)) ∧ (f (k + 1)).caller = (f k).caller.map fun _ => (f (k + 1)).X := by
    intro k hk
    have h1 := hnext k hk
    unfold Alg.next at h1
    have h2 : (if k + 1 = 1 then f k else (alg P sync).post (k + 1) (f k)) = f k := by split_ifs <;> rfl
    rw [h2, alg_step] at h1
    cases sync with
    | true => exact generation_sync hF h1
    | false => exact generation_async hF (by omega) h1
  choose! Y hY1 hY2 hY3 hY4 using hgen
  have hX0 : s0.X = (initPop P x0 g).1 := by rw [hs0]
  have hlog : ∀ k < r.nit, (f k).evals = (List.range (k + 1)).flatMap fun k => List.ofFn (Nat.casesOn k s0.X Y : Pop K p n) := by
    intro k
    induction k with
    | zero => intro _; rw [f0, hs0]; simp
    | succ k ih =>
      intro hk
      rw [hY2 k hk, ih (by omega), List.range_succ (n := k + 1), List.flatMap_append]
      simp
  have hcall : ∀ k < r.nit, (f k).caller = x0.map fun _ => (f k).X := by
    intro k
    induction k with
    | zero => intro _; rw [f0, hs0]; cases x0 <;> rfl
    | succ k ih =>
      intro hk
      rw [hY4 k hk, ih (by omega), Option.map_map]; rfl
  have hpf : ∀ k < r.nit, (f k).pfit = fun i => c.fn ((Nat.casesOn k s0.X Y : Pop K p n) i) := by
    intro k hk
    cases k with
    | zero => rw [f0, hs0]; exact funext fun i => hF.obj.pop _ i
    | succ k => exact hY3 k hk
  refine ⟨fun k => poolOf (f k), fun k => (f k).rng, fun k => Nat.casesOn k s0.X Y, ?_, ?_, hp, hn, fun k hk => hY1 k hk, ?_, ?_, ?_, ?_⟩
  · dsimp only
    rw [f0, hs0, ← hF.R, ← hF.lower, ← hF.upper]
    cases x0 with
    | some x => exact Or.inl ⟨rfl, rfl⟩
    | none => exact lhs_first P.R P.lower P.upper g
  · dsimp only
    rw [f0]
    refine ⟨rfl, fun i => ?_, i, ?_, ?_, ?_⟩
    · rw [hs0]; exact hF.obj.pop _ i
    · rw [hs0]; exact firstBest_of_argmin hi
    · rw [hs0]; rfl
    · rw [hs0]; rfl
  · show L.s.evals = _
    rw [hlast, hlog _ (by omega)]
    have : r.nit - 1 + 1 = r.nit := by omega
    rw [this]
  · have e : (poolOf (f 0)).best = (alg P sync).rec0Best s0 := by rw [f0]; rfl
    dsimp only
    rw [e]
    refine hrep.congr (by omega) (fun k hk => ⟨rfl, rfl, rfl, ?_, hpf k hk⟩)
    by_cases h0 : k = 0
    · subst h0; rw [if_pos rfl]; rfl
    · rw [if_neg h0]; rfl
  · show L.s.caller = _
    rw [hlast]; exact hcall _ (by omega)
  · show L.s.rng = _
    rw [hlast]

end Stochopy.DE
