import Verif.Lemmas.Alias
import Verif.Spec.Alias
import Verif.Props.Parallel

/-!
# C90: the callback keeps what it is given

`minimizeMem` is `minimize` together with the memory of the arrays that the callback was called with (`Model/Alias.lean`).
-/

set_option linter.unusedSectionVars false

namespace Stochopy
open Spec Concrete
variable {K σ : Type} [AddZeroClass K] [One K] [Sub K] [Mul K] [Div K] [Neg K] [NatCast K] [IntCast K] [Pow K ℕ] [ArrayOps K] [LinearOrder K] [IntParts K]
variable {env : Env} {R : Rng σ K} {srt : Argsort K} {fuel : Nat} {g : σ}

/-- The memory does not change what is returned. -/
theorem C90_memory [NumFns K] (a : DE.Args K) (b : CPSO.Args K) (d : PSO.Args K) (e : NA.Args K) :
    (∀ o, DE.minimize env R fuel a g = .ok o ↔ ∃ m, DE.minimizeMem env R fuel a g = .ok (o, m)) ∧
    (∀ o, CPSO.minimize env R srt fuel b g = .ok o ↔ ∃ m, CPSO.minimizeMem env R srt fuel b g = .ok (o, m)) ∧
    (∀ o, PSO.minimize env R srt fuel d g = .ok o ↔ ∃ m, PSO.minimizeMem env R srt fuel d g = .ok (o, m)) ∧
    (∀ o, NA.minimize env R srt fuel e g = .ok o ↔ ∃ m, NA.minimizeMem env R srt fuel e g = .ok (o, m)) := by
  have h1 := of_map_fst (DE.minimizeMem_fst (env := env) (R := R) (fuel := fuel) (g := g) a)
  have h2 := of_map_fst (CPSO.minimizeMem_fst (env := env) (R := R) (srt := srt) (fuel := fuel) (g := g) b)
  have h3 := of_map_fst (CPSO.minimizeMem_fst (env := env) (R := R) (srt := srt) (fuel := fuel) (g := g) d.toCPSO)
  have h4 := of_map_fst (NA.minimizeMem_fst (env := env) (R := R) (srt := srt) (fuel := fuel) (g := g) e)
  exact ⟨fun o => ⟨h1.2 o, fun ⟨m, h⟩ => h1.1 o m h⟩, fun o => ⟨h2.2 o, fun ⟨m, h⟩ => h2.1 o m h⟩,
    fun o => ⟨h3.2 o, fun ⟨m, h⟩ => h3.1 o m h⟩, fun o => ⟨h4.2 o, fun ⟨m, h⟩ => h4.1 o m h⟩⟩

/-- `na` passes a new array to every call. -/
theorem C90_na {a : NA.Args K} {o : Output σ K a.p a.ndim} {m : Mem K a.p a.ndim}
    (h : NA.minimizeMem env R srt fuel a g = .ok (o, m)) : CallbackArraysKept o m := by
  obtain ⟨P, s0, r, hr, h1, rfl⟩ := NA.minimizeMem_ok h
  unfold CallbackArraysKept
  rw [h1]
  exact run_fresh_id rfl (fun _ _ => rfl) hr

/-- `pso` with deferred updating binds `X` to a new array in every generation.  Missing: immediate updating, for which it
fails. -/
theorem C90_cpso_partial [NumFns K] {a : CPSO.Args K} {o : Output σ K a.p a.ndim} {m : Mem K a.p a.ndim}
    (hs : Deferred a.updating a.workers a.backend) (hγ : a.competitivity = none ∨ a.competitivity = some 0)
    (h : CPSO.minimizeMem env R srt fuel a g = .ok (o, m)) : CallbackArraysKept o m := by
  obtain ⟨P, s0, r, hR, hg, hlo, hup, hi, hr, h1, rfl, -⟩ := CPSO.minimizeMem_ok h
  have hsync : a.sync = true := sync_iff.2 hs
  unfold CallbackArraysKept
  rw [h1]
  rw [hsync] at hr
  refine run_fresh_id rfl (fun it s => ?_) hr
  show (CPSO.post P it s).X = s.X
  unfold CPSO.post
  rw [hg]
  rcases hγ with hγ | hγ <;> simp [hγ]

theorem C90_pso_partial [NumFns K] {a : PSO.Args K} {o : Output σ K a.p a.ndim} {m : Mem K a.p a.ndim}
    (hs : Deferred a.updating a.workers a.backend) (h : PSO.minimizeMem env R srt fuel a g = .ok (o, m)) :
    CallbackArraysKept o m :=
  C90_cpso_partial (a := a.toCPSO) hs (Or.inl rfl) h

/-- After the callback a particle stays where it is or is placed uniformly in the box. -/
theorem CPSO.post_row [NumFns K] {p n : Nat} {P : CPSO.Par σ K n} (it : Nat) (s : CPSO.State σ K p n) (i : Fin p) :
    (CPSO.post P it s).X i = s.X i ∨ ∃ u : Vec K n, ∀ j, (CPSO.post P it s).X i j = unif (P.lower j) (P.upper j) (u j) := by
  rcases CPSO.post_cases (P := P) it s with h | ⟨gm, -, -, h⟩
  · rw [h]; exact Or.inl rfl
  · rw [h]
    unfold CPSO.restart
    split_ifs
    · unfold CPSO.resetWorst
      dsimp only
      cases CPSO.restartPos P.argsort s.pbestfit (CPSO.numRestart p it P.maxiter gm).toNat i with
      | none => exact Or.inl rfl
      | some t => exact Or.inr ⟨_, fun j => rfl⟩
    · exact Or.inl rfl
    · exact Or.inl rfl

/-- With restarts, deferred updating: in an array that the callback was given, a row is as it was shown or holds the uniform draws
with which the particle was restarted. -/
theorem C90_cpso_restarts_partial [NumFns K] {a : CPSO.Args K} {o : Output σ K a.p a.ndim} {m : Mem K a.p a.ndim}
    (hs : Deferred a.updating a.workers a.backend) (h : CPSO.minimizeMem env R srt fuel a g = .ok (o, m)) :
    m.contents.length = o.cbs.length ∧ ∀ k d, o.cbs[k]? = some d → ∃ X, m.contents[k]? = some X ∧
      ∀ i, X i = d.X i ∨ 0 < k ∧ k + 1 < o.cbs.length ∧ ∃ u : Vec K a.ndim, ∀ j, X i j = unif (lo a.toCommonArgs j) (hi a.toCommonArgs j) (u j) := by
  obtain ⟨P, s0, r, hR, hg, hlo, hup, hi, hr, h1, rfl, -⟩ := CPSO.minimizeMem_ok h
  have hsync : a.sync = true := sync_iff.2 hs
  rw [hsync] at hr
  obtain ⟨h2, h3⟩ := run_fresh (A := CPSO.alg P true) rfl hr
  rw [h1]
  refine ⟨h2, fun k d hd => ?_⟩
  obtain ⟨s, hX, h4 | ⟨h4, h5, h6⟩⟩ := h3 k d hd
  · exact ⟨_, h4, fun i => Or.inl (by rw [hX])⟩
  · refine ⟨_, h6, fun i => ?_⟩
    rcases CPSO.post_row (P := P) (k + 1) s i with h | ⟨u, h⟩
    · rw [hX]; exact Or.inl h
    · exact Or.inr ⟨h5, h4, u, fun j => by rw [lo, Spec.hi]; rw [hlo, hup] at h; exact h j⟩

/-- What the callback is left with when `X` is written in place: every array that it was given is the same one, and holds the
population of the last call. -/
theorem C90_de_partial {a : DE.Args K} {o : Output σ K a.p a.ndim} {m : Mem K a.p a.ndim}
    (h : DE.minimizeMem env R fuel a g = .ok (o, m)) :
    m.contents.length = o.cbs.length ∧ ∀ X ∈ m.contents, (o.cbs.map CB.X).getLast? = some X := by
  obtain ⟨P, s0, r, hi, hr, h1, rfl, -⟩ := DE.minimizeMem_ok h
  obtain ⟨h2, h3, -⟩ := run_inplace (A := DE.alg P a.sync) rfl hr
  rw [h1, h2]
  refine ⟨by simp, fun X hX => ?_⟩
  obtain ⟨h4, rfl⟩ := List.mem_replicate.1 hX
  rw [h3, if_pos]
  by_contra hc
  rw [if_neg hc, List.getLast?_eq_none_iff, List.map_eq_nil_iff] at h3
  exact h4 (by rw [h3]; rfl)

/-- The same for the swarms with immediate updating. -/
theorem C90_cpso_immediate_partial [NumFns K] {a : CPSO.Args K} {o : Output σ K a.p a.ndim} {m : Mem K a.p a.ndim}
    (hs : ¬ Deferred a.updating a.workers a.backend) (h : CPSO.minimizeMem env R srt fuel a g = .ok (o, m)) :
    m.contents.length = o.cbs.length ∧ ∀ X ∈ m.contents, (o.cbs.map CB.X).getLast? = some X := by
  obtain ⟨P, s0, r, -, -, -, -, hi, hr, h1, rfl, -⟩ := CPSO.minimizeMem_ok h
  have hsync : a.sync = false := by
    rw [← Bool.not_eq_true]
    exact fun h => hs (sync_iff.1 h)
  rw [hsync] at hr
  obtain ⟨h2, h3, -⟩ := run_inplace (A := CPSO.alg P false) rfl hr
  rw [h1, h2]
  refine ⟨by simp, fun X hX => ?_⟩
  obtain ⟨h4, rfl⟩ := List.mem_replicate.1 hX
  rw [h3, if_pos]
  by_contra hc
  rw [if_neg hc, List.getLast?_eq_none_iff, List.map_eq_nil_iff] at h3
  exact h4 (by rw [h3]; rfl)

theorem C90_pso_immediate_partial [NumFns K] {a : PSO.Args K} {o : Output σ K a.p a.ndim} {m : Mem K a.p a.ndim}
    (hs : ¬ Deferred a.updating a.workers a.backend) (h : PSO.minimizeMem env R srt fuel a g = .ok (o, m)) :
    m.contents.length = o.cbs.length ∧ ∀ X ∈ m.contents, (o.cbs.map CB.X).getLast? = some X :=
  C90_cpso_immediate_partial (a := a.toCPSO) hs h

/-- The first array is the one that was given as `x0`: what C30 says about it is what the memory says. -/
theorem C90_de_x0 {a : DE.Args K} {o : Output σ K a.p a.ndim} {m : Mem K a.p a.ndim}
    (h : DE.minimizeMem env R fuel a g = .ok (o, m)) {x0 : Pop K a.p a.ndim} (hx : a.x0Pop = some x0) :
    o.x0After = m.arrays.head? := by
  obtain ⟨P, s0, r, hi, hr, h1, rfl, h2⟩ := DE.minimizeMem_ok h
  obtain ⟨-, -, h3⟩ := run_inplace (A := DE.alg P a.sync) rfl hr
  obtain ⟨l, st, msg, hH, -⟩ := run_hist (withMem_run_ok hr)
  rw [h2, h3]
  show r.2.s.1.caller = some r.2.s.1.X
  refine hH.inv (fun s => s.caller = some s.X) ?_ ?_ (fun _ _ _ hI => hI) _ (List.mem_cons_self ..)
  · obtain ⟨i, hi, rfl⟩ := DE.init_ok hi
    show a.x0Pop = some (DE.initPop P a.x0Pop _).1
    rw [hx]
    rfl
  · intro it s s' st _ hI hst
    rw [DE.alg_step] at hst
    cases hsy : a.sync with
    | true =>
      rw [hsy] at hst
      obtain ⟨U, q, _, hq, _, rfl⟩ := DE.stepSync_ok hst
      show s.caller.map _ = some q.x
      rw [hI]; rfl
    | false =>
      rw [hsy] at hst
      obtain ⟨st0, hfold, _⟩ := DE.stepAsync_ok hst
      refine foldlM_inv (fun acc : DE.State σ K a.p a.ndim × Option Int => acc.1.caller = some acc.1.X) ?_ _ ?_ hfold
      · intro b i b' hb hb'
        obtain ⟨U, q, _, hq, rfl⟩ := DE.rowAsync_ok hb'
        show b.1.caller.map _ = some q.x
        rw [hb]; rfl
      · exact hI

/-- `cpso`: the first array is the one that was given as `x0`. -/
theorem C90_cpso_x0 [NumFns K] (he : env.Ok) {a : CPSO.Args K} {o : Output σ K a.p a.ndim} {m : Mem K a.p a.ndim}
    (h : CPSO.minimizeMem env R srt fuel a g = .ok (o, m)) {x0 : Pop K a.p a.ndim} (hx : a.x0Pop = some x0) :
    o.x0After = m.arrays.head? := by
  have hmin := (of_map_fst (CPSO.minimizeMem_fst (env := env) (R := R) (srt := srt) (fuel := fuel) (g := g) a)).1 o m h
  obtain ⟨P, s0, r, -, -, -, -, hi, hr, h1, rfl, h2⟩ := CPSO.minimizeMem_ok h
  have hs0 : s0.X = x0 ∧ s0.caller = some x0 ∧ s0.aliased = true := by
    obtain ⟨i, hi, rfl⟩ := CPSO.init_ok hi
    refine ⟨?_, hx, ?_⟩
    · show (CPSO.initPop P a.x0Pop _).1 = _
      rw [hx]
      rfl
    · show a.x0Pop.isSome = true
      rw [hx]
      rfl
  cases hsy : a.sync with
  | true =>
    rw [C30_cpso_partial he (sync_iff.1 hsy) hmin, hx]
    rw [hsy] at hr
    obtain ⟨l, st, msg, hH, hl, -⟩ := run_hist (r := r.1) (L := r.2) hr
    obtain ⟨u, hu, hu'⟩ := (hist_fresh (A := CPSO.alg P true) hH).2 _ _ rfl 0 (by simp; omega)
    rw [List.head?_eq_getElem?, hu', if_pos rfl]
    have hlast : (r.2.s :: l).reverse[0]? = some (s0, Mem.start s0.X a.cfg.hasCallback) := by
      rw [← List.head?_eq_getElem?, List.head?_reverse]
      exact hist_last hH
    rw [hlast] at hu
    cases hu
    rw [← hs0.1]
    rfl
  | false =>
    rw [hsy] at hr
    obtain ⟨-, -, h3⟩ := run_inplace (A := CPSO.alg P false) rfl hr
    obtain ⟨l, st, msg, hH, -⟩ := run_hist (withMem_run_ok hr)
    rw [h2, h3]
    show r.2.s.1.caller = some r.2.s.1.X
    refine (hH.inv (fun s => s.caller = some s.X ∧ s.aliased = true) ?_ ?_ ?_ _ (List.mem_cons_self ..)).1
    · rw [hs0.1]; exact hs0.2
    · intro it s s' st _ hI hst
      replace hst : CPSO.stepAsync P it s = _ := hst
      unfold CPSO.stepAsync at hst
      dsimp only at hst
      cases hst
      refine foldl_inv (fun acc : CPSO.State σ K a.p a.ndim × Option Int => acc.1.caller = some acc.1.X ∧ acc.1.aliased = true) ?_ _ ?_
      · intro b i hb
        refine ⟨?_, hb.2⟩
        show CPSO.writeThrough b.1.aliased b.1.caller _ = _
        rw [hb.1, hb.2]
        rfl
      · exact hI
    · intro it s _ hI
      show (CPSO.post P it s).caller = some (CPSO.post P it s).X ∧ (CPSO.post P it s).aliased = true
      rcases CPSO.post_cases (P := P) it s with h | ⟨gm, -, -, h⟩
      · rw [h]; exact hI
      · rw [h]
        unfold CPSO.restart
        split_ifs
        · refine ⟨?_, hI.2⟩
          show CPSO.writeThrough s.aliased s.caller _ = _
          rw [hI.1, hI.2]
          rfl
        · exact hI
        · exact hI

/-- Was the content of an array that the callback had been given changed? -/
def spoiled {p n : Nat} (r : Except PyErr (Output Nat ℚ p n × Mem ℚ p n)) : Bool :=
  match r with
  | .ok (o, m) => decide (∃ k : Fin o.cbs.length, ∃ i j, (m.contents[k.val]?.map fun X => X i j) ≠ some (o.cbs[k].X i j))
  | .error _ => false

theorem spoiled_iff {p n : Nat} {r : Except PyErr (Output Nat ℚ p n × Mem ℚ p n)} (h : spoiled r = true) :
    ∃ o m, r = .ok (o, m) ∧ ¬ CallbackArraysKept o m := by
  unfold spoiled at h
  split at h
  · rename_i o m
    obtain ⟨k, i, j, h⟩ := of_decide_eq_true h
    refine ⟨o, m, rfl, fun hk => h ?_⟩
    unfold CallbackArraysKept at hk
    rw [hk]
    simp
  · cases h

/-- `de` overwrites the populations that it has passed to the callback, in both updating modes. -/
theorem C90_de_violated :
    (∃ o m, DE.minimizeMem Concrete.env rng 10 { deArgs with callback := some true } 0 = .ok (o, m) ∧ ¬ CallbackArraysKept o m) ∧
    (∃ o m, DE.minimizeMem Concrete.env rng 10 { deArgs with updating := "deferred", callback := some true } 0 = .ok (o, m) ∧
      ¬ CallbackArraysKept o m) :=
  ⟨spoiled_iff (by decide +kernel), spoiled_iff (by decide +kernel)⟩

/-- So do the swarms with immediate updating. -/
theorem C90_pso_violated :
    ∃ o m, PSO.minimizeMem Concrete.env rng stableArgsort 10 { psoArgs with updating := "immediate", callback := some true } 0 = .ok (o, m) ∧
      ¬ CallbackArraysKept o m :=
  spoiled_iff (by decide +kernel)

/-- And `cpso` with deferred updating, when particles are restarted. -/
theorem C90_cpso_violated :
    ∃ o m, CPSO.minimizeMem Concrete.env rng stableArgsort 10 { collapsed with updating := "deferred", callback := some true } 0 = .ok (o, m) ∧
      ¬ CallbackArraysKept o m :=
  spoiled_iff (by decide +kernel)

/-- Does the callback see different populations and keep them? -/
def keeps {p n : Nat} (r : Except PyErr (Output Nat ℚ p n × Mem ℚ p n)) : Bool :=
  match r with
  | .ok (o, m) => decide (2 ≤ o.cbs.length) && decide (m.contents.length = o.cbs.length) &&
      decide (∃ i j, (m.contents[0]?.map fun X => X i j) ≠ m.contents[1]?.map fun X => X i j)
  | .error _ => false

example : keeps (PSO.minimizeMem Concrete.env rng stableArgsort 10 { psoArgs with updating := "deferred", callback := some true } 0) = true ∧
    keeps (NA.minimizeMem Concrete.env rng stableArgsort 10 { naArgs with callback := some true } 0) = true := by decide +kernel

end Stochopy
