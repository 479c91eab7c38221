import Verif.Lemmas.EvoRun

/-! A completed run as a sequence of states. -/

set_option linter.unusedSectionVars false

namespace Stochopy.Evo
variable {K σ S : Type} [AddZeroClass K] [One K] [Sub K] [Mul K] [Div K] [Neg K] [NatCast K] [IntCast K] [Pow K ℕ] [ArrayOps K] [LinearOrder K] [NumFns K] [IntParts K] {p n : Nat}
  {P : Par K n} {G : Gauss S K p n} {c : Cfg} {rng : S → σ} {fuel : Nat} {s0 : S} {o : Output σ K p n}

/-- `L` is reached from `init` through the states `f 0`, `f 1`, …. -/
def Chain (P : Par K n) (G : Gauss S K p n) (c : Cfg) (s0 : S) (L : St S K p n) : Prop :=
  ∃ f : Nat → St S K p n, f 0 = init c s0 ∧ f L.it = L ∧ ∀ k < L.it, ∃ g, body P G c (f k) = .ok (f (k + 1), g)

theorem Chain.init : Chain P G c s0 (init c s0) := ⟨fun _ => Evo.init c s0, rfl, rfl, fun k hk => absurd hk (Nat.not_lt_zero k)⟩

theorem Chain.step {L : St S K p n} {r : St S K p n × Gen K p n} (h : Chain P G c s0 L) (hb : body P G c L = .ok r) :
    Chain P G c s0 r.1 := by
  obtain ⟨f, h0, h1, h2⟩ := h
  have hit : r.1.it = L.it + 1 := by
    obtain ⟨_, _, _, _, _, _, _, _, _, _, _, rfl⟩ := body_ok hb
    rfl
  refine ⟨fun k => if k = L.it + 1 then r.1 else f k, ?_, ?_, fun k hk => ?_⟩
  · show (if 0 = L.it + 1 then r.1 else f 0) = _
    rw [if_neg (by omega), h0]
  · show (if r.1.it = L.it + 1 then r.1 else f r.1.it) = _
    rw [if_pos hit]
  · show ∃ g, body P G c (if k = L.it + 1 then r.1 else f k) = .ok ((if k + 1 = L.it + 1 then r.1 else f (k + 1)), g)
    rw [if_neg (by omega)]
    by_cases hk' : k = L.it
    · rw [if_pos (by omega), hk', h1]
      exact ⟨r.2, hb⟩
    · rw [if_neg (by omega)]
      exact h2 k (by omega)

theorem evals_step {L : St S K p n} {r : St S K p n × Gen K p n} (hb : body P G c L = .ok r) :
    r.1.evals = L.evals ++ List.ofFn r.2.X ∧ r.1.it = L.it + 1 := by
  obtain ⟨_, _, _, _, _, _, _, _, _, _, _, rfl⟩ := body_ok hb
  exact ⟨rfl, rfl⟩

/-- The states of a run and the points it evaluates. -/
theorem run_chain (h : run P G c rng fuel s0 = .ok o) :
    ∃ f : Nat → St S K p n, f 0 = init c s0 ∧ (∀ k < o.res.nit, ∃ g, body P G c (f k) = .ok (f (k + 1), g) ∧
      ∀ i : Fin p, o.evals[k * p + i.val]? = some (g.X i)) ∧ o.rng = rng (f o.res.nit).s := by
  obtain ⟨gs, g, L', L, st, H⟩ := run_ok h (Chain P G c s0) Chain.init fun L r hL hb => hL.step hb
  obtain ⟨f, h0, h1, h2⟩ := H.inv.step H.last
  change f L.it = L at h1
  change ∀ k < L.it, _ at h2
  have hn : o.res.nit = L.it := by obtain ⟨msg, -, hr⟩ := H.res; rw [hr]
  have hlen : ∀ k ≤ L.it, (f k).evals.length = k * p := by
    intro k
    induction k with
    | zero => intro _; rw [h0]; simp [init]
    | succ k ih =>
      intro hk
      obtain ⟨g, hg⟩ := h2 k (by omega)
      rw [(evals_step hg).1, List.length_append, ih (by omega), List.length_ofFn]
      ring
  have hpre : ∀ d k, k + d = L.it → (f k).evals <+: L.evals := by
    intro d
    induction d with
    | zero => intro k hk; rw [show k = L.it by omega, h1]
    | succ d ih =>
      intro k hk
      obtain ⟨g, hg⟩ := h2 k (by omega)
      refine List.IsPrefix.trans ?_ (ih (k + 1) (by omega))
      rw [(evals_step hg).1]
      exact List.prefix_append _ _
  refine ⟨f, h0, fun k hk => ?_, by rw [H.final, hn, h1]⟩
  obtain ⟨g, hg⟩ := h2 k (by omega)
  refine ⟨g, hg, fun i => ?_⟩
  obtain ⟨t, ht⟩ := hpre (L.it - (k + 1)) (k + 1) (by omega)
  rw [H.evals, ← ht, (evals_step hg).1, List.append_assoc, List.getElem?_append_right (by rw [hlen k (by omega)]; omega),
    hlen k (by omega), Nat.add_sub_cancel_left, List.getElem?_append_left (by simp)]
  simp

/-- The same with the generation that gives the result. -/
theorem run_chain_last (h : run P G c rng fuel s0 = .ok o) :
    ∃ (f : Nat → St S K p n) (g : Nat → Gen K p n), f 0 = init c s0 ∧ (∀ k < o.res.nit, body P G c (f k) = .ok (f (k + 1), g k) ∧
      ∀ i : Fin p, o.evals[k * p + i.val]? = some ((g k).X i)) ∧ o.rng = rng (f o.res.nit).s ∧
      ∃ k, o.res.nit = k + 1 ∧ o.res.x = (g k).X (g k).best ∧ o.res.fval = (g k).fit (g k).best := by
  obtain ⟨gs, g, L', L, st, H⟩ := run_ok h (Chain P G c s0) Chain.init fun L r hL hb => hL.step hb
  obtain ⟨f0, h0, h1, h2⟩ := H.inv
  have hit : L.it = L'.it + 1 := by
    obtain ⟨_, _, _, _, _, _, _, _, _, _, _, hr⟩ := body_ok H.last
    exact congrArg (fun r => r.1.it) hr
  obtain ⟨msg, -, hr⟩ := H.res
  have hn : o.res.nit = L'.it + 1 := by rw [hr]; exact hit
  have hex : ∀ k, ∃ g', k < L'.it → body P G c (f0 k) = .ok (f0 (k + 1), g') := fun k => by
    by_cases hk : k < L'.it
    · obtain ⟨g', hg⟩ := h2 k hk; exact ⟨g', fun _ => hg⟩
    · exact ⟨g, fun h => absurd h hk⟩
  choose g0 hg0 using hex
  let f : Nat → St S K p n := fun k => if k = L'.it + 1 then L else f0 k
  let gn : Nat → Gen K p n := fun k => if k = L'.it then g else g0 k
  have hf0 : f 0 = init c s0 := by show (if 0 = L'.it + 1 then L else f0 0) = _; rw [if_neg (by omega), h0]
  have hstep : ∀ k < o.res.nit, body P G c (f k) = .ok (f (k + 1), gn k) := by
    intro k hk
    show body P G c (if k = L'.it + 1 then L else f0 k) =
      .ok ((if k + 1 = L'.it + 1 then L else f0 (k + 1)), if k = L'.it then g else g0 k)
    rw [if_neg (by omega)]
    by_cases hk' : k = L'.it
    · rw [if_pos (by omega), if_pos hk', hk', h1]; exact H.last
    · rw [if_neg (by omega), if_neg hk']; exact hg0 k (by omega)
  have hlast : f o.res.nit = L := by show (if o.res.nit = L'.it + 1 then L else _) = _; rw [if_pos hn]
  have hlen : ∀ k ≤ o.res.nit, (f k).evals.length = k * p := by
    intro k
    induction k with
    | zero => intro _; rw [hf0]; simp [init]
    | succ k ih =>
      intro hk
      rw [(evals_step (hstep k (by omega))).1, List.length_append, ih (by omega), List.length_ofFn]
      ring
  have hpre : ∀ d k, k + d = o.res.nit → (f k).evals <+: L.evals := by
    intro d
    induction d with
    | zero => intro k hk; rw [show k = o.res.nit by omega, hlast]
    | succ d ih =>
      intro k hk
      refine List.IsPrefix.trans ?_ (ih (k + 1) (by omega))
      rw [(evals_step (hstep k (by omega))).1]
      exact List.prefix_append _ _
  refine ⟨f, gn, hf0, fun k hk => ⟨hstep k hk, fun i => ?_⟩, by rw [H.final, hlast], L'.it, hn, ?_, ?_⟩
  · obtain ⟨t, ht⟩ := hpre (o.res.nit - (k + 1)) (k + 1) (by omega)
    rw [H.evals, ← ht, (evals_step (hstep k hk)).1, List.append_assoc,
      List.getElem?_append_right (by rw [hlen k (by omega)]; omega), hlen k (by omega), Nat.add_sub_cancel_left,
      List.getElem?_append_left (by simp)]
    simp
  · have hg : gn L'.it = g := if_pos rfl
    rw [hr, hg]
  · have hg : gn L'.it = g := if_pos rfl
    rw [hr, hg]

end Stochopy.Evo
