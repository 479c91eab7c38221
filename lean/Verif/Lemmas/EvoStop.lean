import Verif.Lemmas.EvoRun

/-! The range tests of `converge`. -/

set_option linter.unusedSectionVars false

namespace Stochopy.Evo
open Spec

section
variable {K : Type} [Field K] [LinearOrder K] [IsStrictOrderedRing K]

theorem npMax_ne_nan {a b : Val K} (h : npMax a b ≠ .nan) : a ≠ .nan ∧ b ≠ .nan ∧ a ≤ npMax a b ∧ b ≤ npMax a b := by
  unfold npMax at h ⊢
  by_cases ha : a.isNan = true
  · rw [if_pos ha] at h; exact absurd (Val.isNan_iff.1 ha) h
  rw [if_neg ha] at h ⊢
  by_cases hb : b.isNan = true
  · rw [if_pos hb] at h; exact absurd (Val.isNan_iff.1 hb) h
  rw [if_neg hb] at h ⊢
  have ha' : a ≠ .nan := fun h => ha (Val.isNan_iff.2 h)
  have hb' : b ≠ .nan := fun h => hb (Val.isNan_iff.2 h)
  by_cases hl : a < b
  · rw [if_pos hl]; exact ⟨ha', hb', Val.le_of_lt' hl, Val.le_refl' hb'⟩
  · rw [if_neg hl]; exact ⟨ha', hb', Val.le_refl' ha', (Val.not_lt_iff hb' ha').1 hl⟩

theorem npMin_ne_nan {a b : Val K} (h : npMin a b ≠ .nan) : a ≠ .nan ∧ b ≠ .nan ∧ npMin a b ≤ a ∧ npMin a b ≤ b := by
  unfold npMin at h ⊢
  by_cases ha : a.isNan = true
  · rw [if_pos ha] at h; exact absurd (Val.isNan_iff.1 ha) h
  rw [if_neg ha] at h ⊢
  by_cases hb : b.isNan = true
  · rw [if_pos hb] at h; exact absurd (Val.isNan_iff.1 hb) h
  rw [if_neg hb] at h ⊢
  have ha' : a ≠ .nan := fun h => ha (Val.isNan_iff.2 h)
  have hb' : b ≠ .nan := fun h => hb (Val.isNan_iff.2 h)
  by_cases hl : b < a
  · rw [if_pos hl]; exact ⟨ha', hb', Val.le_of_lt' hl, Val.le_refl' hb'⟩
  · rw [if_neg hl]; exact ⟨ha', hb', Val.le_refl' ha', (Val.not_lt_iff ha' hb').1 hl⟩

theorem foldl_npMax (l : List (Val K)) : ∀ a : Val K, l.foldl npMax a ≠ .nan → a ≠ .nan ∧ a ≤ l.foldl npMax a ∧
    ∀ x ∈ l, x ≤ l.foldl npMax a := by
  induction l with
  | nil => intro a h; exact ⟨h, Val.le_refl' h, nofun⟩
  | cons y t ih =>
    intro a h
    obtain ⟨h1, h2, h3⟩ := ih (npMax a y) h
    obtain ⟨h4, h5, h6, h7⟩ := npMax_ne_nan h1
    refine ⟨h4, Val.le_trans' h6 h2, fun x hx => ?_⟩
    rcases List.mem_cons.1 hx with rfl | hx
    · exact Val.le_trans' h7 h2
    · exact h3 x hx

theorem foldl_npMin (l : List (Val K)) : ∀ a : Val K, l.foldl npMin a ≠ .nan → a ≠ .nan ∧ l.foldl npMin a ≤ a ∧
    ∀ x ∈ l, l.foldl npMin a ≤ x := by
  induction l with
  | nil => intro a h; exact ⟨h, Val.le_refl' h, nofun⟩
  | cons y t ih =>
    intro a h
    obtain ⟨h1, h2, h3⟩ := ih (npMin a y) h
    obtain ⟨h4, h5, h6, h7⟩ := npMin_ne_nan h1
    refine ⟨h4, Val.le_trans' h2 h6, fun x hx => ?_⟩
    rcases List.mem_cons.1 hx with rfl | hx
    · exact Val.le_trans' h2 h7
    · exact h3 x hx

theorem fin_of_between {m M x : Val K} {e : K} (h1 : m ≤ x) (h2 : x ≤ M) (h : M - m < .fin e) :
    ∃ a k b : K, m = .fin a ∧ x = .fin k ∧ M = .fin b ∧ a ≤ k ∧ k ≤ b ∧ b - a < e := by
  match m, x, M, h1, h2, h with
  | .fin a, .fin k, .fin b, h1, h2, h =>
    refine ⟨a, k, b, rfl, rfl, rfl, h1, h2, ?_⟩
    have h : b + -a < e := h
    rwa [← sub_eq_add_neg] at h
  | .nan, _, _, h1, _, _ => exact absurd h1 (by intro h; exact h)
  | _, _, .nan, _, h2, _ => exact absurd rfl (Val.ne_nan_right h2)
  | .ninf, _, .ninf, _, _, h => exact absurd h (by intro h; exact h)
  | .ninf, _, .fin _, _, _, h => exact absurd h (by intro h; exact h)
  | .ninf, _, .pinf, _, _, h => exact absurd h (by intro h; exact h)
  | .fin _, _, .pinf, _, _, h => exact absurd h (by intro h; exact h)
  | .fin _, .ninf, _, h1, _, _ => exact absurd h1 (by intro h; exact h)
  | .fin _, .nan, _, h1, _, _ => exact absurd h1 (by intro h; exact h)
  | .fin _, _, .ninf, h1, h2, h => exact absurd (Val.le_trans' h1 h2) (by intro h; exact h)
  | .fin _, .pinf, .fin _, _, h2, _ => exact absurd h2 (by intro h; exact h)
  | .pinf, _, .pinf, _, _, h => exact absurd h (by intro h; exact h)
  | .pinf, _, .fin _, h1, h2, _ => exact absurd (Val.le_trans' h1 h2) (by intro h; exact h)
  | .pinf, _, .ninf, h1, h2, _ => exact absurd (Val.le_trans' h1 h2) (by intro h; exact h)

/-- The range is below `e` only if all entries are numbers closer than `e` to each other. -/
theorem rangeLt_spec {l : List (Val K)} {e : K} (h : rangeLt l e = true) {x y : Val K} (hx : x ∈ l) (hy : y ∈ l) :
    ∃ a b : K, x = .fin a ∧ y = .fin b ∧ |a - b| < e := by
  cases l with
  | nil => cases hx
  | cons v t =>
    have h : t.foldl npMax v - t.foldl npMin v < .fin e := of_decide_eq_true h
    have n1 : t.foldl npMax v ≠ .nan := fun h0 => by rw [h0] at h; exact h
    have n2 : t.foldl npMin v ≠ .nan := fun h0 => by
      rw [h0] at h
      revert h
      cases t.foldl npMax v <;> exact fun h => h
    obtain ⟨-, h1, h2⟩ := foldl_npMax t v n1
    obtain ⟨-, h3, h4⟩ := foldl_npMin t v n2
    have key : ∀ z ∈ v :: t, t.foldl npMin v ≤ z ∧ z ≤ t.foldl npMax v := fun z hz => by
      rcases List.mem_cons.1 hz with rfl | hz
      · exact ⟨h3, h1⟩
      · exact ⟨h4 z hz, h2 z hz⟩
    obtain ⟨a, k, b, e1, e2, e3, e4, e5, e6⟩ := fin_of_between (key x hx).1 (key x hx).2 h
    obtain ⟨a', k', b', f1, f2, f3, f4, f5, f6⟩ := fin_of_between (key y hy).1 (key y hy).2 h
    rw [e1] at f1; cases f1
    rw [e3] at f3; cases f3
    refine ⟨k, k', e2, f2, ?_⟩
    rw [abs_lt]
    constructor <;> linarith

end

section
variable {K : Type} [Field K] [LinearOrder K] [IsStrictOrderedRing K] [NumFns K] {p n : Nat}

/-- What the two range tests and the axis tests say. -/
theorem converge_range {it : Nat} {maxiter : Int} {xmean xold : Vec K n} {arbest : List (Val K)} {fit : Fin p → Val K}
    {best : Val K} {sigma insigma : K} {ilim : Nat} {pc : Vec K n} {xtol : K} {ftol : Val K} {diagC : Vec K n}
    {axes : Option (Matrix (Fin n) (Fin n) K × Vec K n)} {st : Option Int}
    (h : converge it maxiter xmean xold arbest fit best sigma insigma ilim pc xtol ftol diagC axes = st) :
    (st = some (-5) → (it : Int) < maxiter ∧ ilim ≤ it ∧ rangeLt ((arbest.take (it + 1)).drop (it - ilim)) (1 / 10 ^ 10) = true) ∧
    (st = some (-7) → (it : Int) < maxiter ∧ 2 < it ∧ rangeLt (List.ofFn fit ++ arbest) (1 / 10 ^ 12) = true) ∧
    (axes = none → st ≠ some (-2) ∧ st ≠ some (-4)) := by
  unfold converge at h
  dsimp only at h
  by_cases h1 : maxiter ≤ (it : Int)
  · rw [if_pos h1] at h; subst h; simp
  rw [if_neg h1] at h
  have h1' : (it : Int) < maxiter := not_le.1 h1
  by_cases h2 : (distLe xold xmean xtol && decide (best < ftol)) = true
  · rw [if_pos h2] at h; subst h; simp
  rw [if_neg h2] at h
  by_cases h3 : best ≤ ftol
  · rw [if_pos h3] at h; subst h; simp
  rw [if_neg h3] at h
  refine ⟨fun e => ?_, fun e => ?_, fun e => ?_⟩
  · subst e
    refine ⟨h1', ?_⟩
    by_contra hc
    rw [if_neg hc] at h
    split_ifs at h <;> cases h
  · subst e
    refine ⟨h1', ?_⟩
    by_contra hc
    rw [if_neg hc] at h
    split_ifs at h <;> cases h
  · subst e
    dsimp only at h
    rw [if_neg Bool.false_ne_true, if_neg Bool.false_ne_true] at h
    subst h
    constructor <;> · intro h; split_ifs at h <;> cases h

end

section
variable {K S σ : Type} [Field K] [LinearOrder K] [IsStrictOrderedRing K] [NumFns K] [FloorRing K] {p n : Nat} {P : Par K n}
  {G : Gauss S K p n} {c : Cfg} {rng : S → σ} {I : St S K p n → Prop} {o : Output σ K p n} {gs : List (Gen K p n)} {g : Gen K p n}
  {L' L : St S K p n} {st : Int}

/-- The status of the last generation in terms of the history of best values. -/
theorem Completed.stops_range (h : Completed P G c rng I o gs g L' L st) :
    (o.res.status = -5 → (o.res.nit : Int) < c.maxiter ∧ P.ilim ≤ o.res.nit ∧
      rangeLt ((L.arbest.take (o.res.nit + 1)).drop (o.res.nit - P.ilim)) (1 / 10 ^ 10) = true) ∧
    (o.res.status = -7 → (o.res.nit : Int) < c.maxiter ∧ 2 < o.res.nit ∧ rangeLt (List.ofFn g.fit ++ L.arbest) (1 / 10 ^ 12) = true) ∧
    ((∀ s, G.axes s = none) → o.res.status ≠ -2 ∧ o.res.status ≠ -4) := by
  have hst := h.status
  have hit : L'.it + 1 = o.res.nit := by rw [h.nit, h.before.it]
  have hos : o.res.status = st := by obtain ⟨msg, -, hr⟩ := h.res; rw [hr]
  obtain ⟨hp, a, e, rows, s, h1, h2, h3, hm, h4, h5, hr⟩ := body_ok h.last
  have hL : L = (after P G c L' hp e rows s).1 := congrArg Prod.fst hr
  have hg : g = (after P G c L' hp e rows s).2 := congrArg Prod.snd hr
  obtain ⟨k1, k2, k3⟩ := converge_range (st := g.status) (by rw [hg, hL]; rfl : converge (L'.it + 1) c.maxiter (G.mean s) (G.old s) L.arbest g.fit
    (g.fit g.best) (G.sigma s) P.insigma P.ilim (G.pc s) P.xtol P.ftol (G.diagConv s) (G.axes s) = g.status)
  rw [hst, hit] at k1 k2
  rw [hst] at k3
  rw [hos]
  refine ⟨fun h => k1 (by rw [h]), fun h => k2 (by rw [h]), fun h => ?_⟩
  have := k3 (h _)
  simpa using this

/-- EqualFunValues compares with an unfilled entry, which is 0. -/
theorem Completed.equalFun (h : Completed P G c rng I o gs g L' L st) (h5 : o.res.status = -5) :
    ∀ k : Nat, o.res.nit - P.ilim ≤ k → ∀ g', (gs ++ [g])[k]? = some g' → ∃ b : K, g'.fit g'.best = .fin b ∧ |b| < 1 / 10 ^ 10 := by
  intro k hk g' hg'
  obtain ⟨h1, h2, h3⟩ := h.stops_range.1 h5
  have hlen : o.res.nit = (gs ++ [g]).length := by rw [h.nit]; simp
  have hk2 : k < o.res.nit := by
    rw [hlen]
    exact (List.getElem?_eq_some_iff.1 hg').1
  have hL := h.hist.arbestLen
  have m1 : g'.fit g'.best ∈ (L.arbest.take (o.res.nit + 1)).drop (o.res.nit - P.ilim) := by
    have := h.hist.arbest k g' hg'
    refine List.mem_iff_getElem?.2 ⟨k - (o.res.nit - P.ilim), ?_⟩
    rw [List.getElem?_drop, List.getElem?_take, if_pos (by omega), ← this]
    congr 1; omega
  have m2 : Val.fin 0 ∈ (L.arbest.take (o.res.nit + 1)).drop (o.res.nit - P.ilim) := by
    have := h.hist.unfilled o.res.nit (by omega) h1
    refine List.mem_iff_getElem?.2 ⟨P.ilim, ?_⟩
    rw [List.getElem?_drop, List.getElem?_take, if_pos (by omega), ← this]
    congr 1; omega
  obtain ⟨a, b, e1, e2, e3⟩ := rangeLt_spec h3 m1 m2
  cases e2
  exact ⟨a, e1, by simpa using e3⟩

/-- So does TolFun. -/
theorem Completed.tolFun (h : Completed P G c rng I o gs g L' L st) (h7 : o.res.status = -7) :
    (∀ i, ∃ b : K, g.fit i = .fin b ∧ |b| < 1 / 10 ^ 12) ∧
    ∀ g' ∈ gs ++ [g], ∃ b : K, g'.fit g'.best = .fin b ∧ |b| < 1 / 10 ^ 12 := by
  obtain ⟨h1, h2, h3⟩ := h.stops_range.2.1 h7
  have hlen : o.res.nit = (gs ++ [g]).length := by rw [h.nit]; simp
  have m2 : Val.fin 0 ∈ List.ofFn g.fit ++ L.arbest := by
    have := h.hist.unfilled o.res.nit (by omega) h1
    exact List.mem_append_right _ (List.mem_iff_getElem?.2 ⟨_, this⟩)
  constructor
  · intro i
    obtain ⟨a, b, e1, e2, e3⟩ := rangeLt_spec h3 (List.mem_append_left _ (List.mem_ofFn.2 ⟨i, rfl⟩)) m2
    cases e2
    exact ⟨a, e1, by simpa using e3⟩
  · intro g' hg'
    obtain ⟨k, hk⟩ := List.mem_iff_getElem?.1 hg'
    have := h.hist.arbest k g' hk
    obtain ⟨a, b, e1, e2, e3⟩ := rangeLt_spec h3 (List.mem_append_right _ (List.mem_iff_getElem?.2 ⟨_, this⟩)) m2
    cases e2
    exact ⟨a, e1, by simpa using e3⟩

end

end Stochopy.Evo
