import Verif.Lemmas.Evolution

/-! One generation of the particle swarms. -/

set_option linter.unusedSectionVars false

namespace Stochopy.CPSO
open Spec
variable {K σ : Type} [Field K] [LinearOrder K] [IsStrictOrderedRing K] {p n : Nat}
variable {P : Par σ K n} {f : Vec K n → Val K} {cname : Option String}

/-- The swarm in a state. -/
def State.swarm (s : State σ K p n) : Swarm K p n := ⟨s.X, s.V, s.pbest, s.pbestfit, s.gbest, s.gfit⟩

theorem consMap_cases {name : Option String} {c : Cons} (h : consMap name = .ok c) :
    (name = none ∧ c = .none) ∨ (name = some "Shrink" ∧ c = .shrink) := by
  unfold consMap at h
  cases name with
  | none => left; simpa using h.symm
  | some s =>
    dsimp only at h
    split_ifs at h with hs
    right; exact ⟨by rw [hs], by simpa using h.symm⟩

/-- Move of one particle. -/
theorem mutation_move (hc : consMap cname = .ok P.cons) {X V pb gb r1 r2 : Vec K n} :
    ∃ v : Vec K n, (∀ j, v j = P.w * V j + P.c1 * r1 j * (pb j - X j) + P.c2 * r2 j * (gb j - X j)) ∧
      Limited cname P.lower P.upper X v (mutation P X V pb gb r1 r2).2 ∧
      ∀ j, (mutation P X V pb gb r1 r2).1 j = X j + (mutation P X V pb gb r1 r2).2 j := by
  refine ⟨fun j => P.w * V j + P.c1 * r1 j * (pb j - X j) + P.c2 * r2 j * (gb j - X j), fun _ => rfl, ?_, ?_⟩
  · rcases consMap_cases hc with ⟨rfl, hk⟩ | ⟨rfl, hk⟩
    · left; refine ⟨rfl, ?_⟩
      unfold mutation; rw [hk]; rfl
    · right; refine ⟨rfl, shrinkBeta P.lower P.upper X (fun j => P.w * V j + P.c1 * r1 j * (pb j - X j) +
        P.c2 * r2 j * (gb j - X j)), ?_, fun hX => ?_⟩
      · intro j; unfold mutation; rw [hk]; exact mul_comm _ _
      · have := shrinkBeta_spec (V := fun j => P.w * V j + P.c1 * r1 j * (pb j - X j) + P.c2 * r2 j * (gb j - X j)) hX
        exact ⟨this.nonneg, this.le_one, this.feasible, this.maximal⟩
  · intro j
    unfold mutation consRow
    cases P.cons <;> rfl

/-- Progress of an immediate generation after `m` particles. -/
structure Progress (P : Par σ K n) (f : Vec K n → Val K) (cname : Option String) (s : State σ K p n)
    (m : Nat) (t : State σ K p n) : Prop where
  evals : t.evals = s.evals ++ (List.ofFn t.X).take m
  rest : ∀ q : Fin p, m ≤ q.val → t.X q = s.X q ∧ t.V q = s.V q ∧ t.pbest q = s.pbest q ∧ t.pbestfit q = s.pbestfit q
  best : Leader f s.gbest s.gfit s.pbestfit t.X m t.gbest t.gfit
  personal : ∀ q : Fin p, q.val < m → (f (t.X q) ≤ s.pbestfit q ∧ t.pbest q = t.X q ∧ t.pbestfit q = f (t.X q)) ∨
    (¬ f (t.X q) ≤ s.pbestfit q ∧ t.pbest q = s.pbest q ∧ t.pbestfit q = s.pbestfit q)
  move : ∀ q : Fin p, q.val < m → ∃ (y : Vec K n) (c : Val K) (r1 r2 v : Vec K n),
    Leader f s.gbest s.gfit s.pbestfit t.X q y c ∧
    (∀ j, (0 ≤ r1 j ∧ r1 j < 1) ∧ 0 ≤ r2 j ∧ r2 j < 1) ∧
    (∀ j, v j = P.w * s.V q j + P.c1 * r1 j * (s.pbest q j - s.X q j) + P.c2 * r2 j * (y j - s.X q j)) ∧
    Limited cname P.lower P.upper (s.X q) v (t.V q) ∧ ∀ j, t.X q j = s.X q j + t.V q j

theorem progress_step (hf : P.obj.Faithful f) (hc : consMap cname = .ok P.cons) {r1 r2 : Pop K p n}
    (hr1 : ∀ i j, 0 ≤ r1 i j ∧ r1 i j < 1) (hr2 : ∀ i j, 0 ≤ r2 i j ∧ r2 i j < 1) {s : State σ K p n} {m : Nat} (hm : m < p)
    {acc : State σ K p n × Option Int} (hP : Progress P f cname s m acc.1) :
    Progress P f cname s (m + 1) (rowAsync P r1 r2 acc ⟨m, hm⟩).1 := by
  obtain ⟨hXm, hVm, hpm, hfm⟩ := hP.rest ⟨m, hm⟩ (le_refl m)
  have hmv := mutation_move (P := P) hc (X := acc.1.X ⟨m, hm⟩) (V := acc.1.V ⟨m, hm⟩) (pb := acc.1.pbest ⟨m, hm⟩)
    (gb := acc.1.gbest) (r1 := r1 ⟨m, hm⟩) (r2 := r2 ⟨m, hm⟩)
  simp only [rowAsync]
  generalize hU : mutation P (acc.1.X ⟨m, hm⟩) (acc.1.V ⟨m, hm⟩) (acc.1.pbest ⟨m, hm⟩) acc.1.gbest (r1 ⟨m, hm⟩)
    (r2 ⟨m, hm⟩) = U at hmv
  obtain ⟨hcf, hcase⟩ := selectionAsync_cases (candi := U.1) (xbest := acc.1.gbest) (gfit := acc.1.gfit)
    (x := acc.1.pbest) (xfun := acc.1.pbestfit) (xtol := P.xtol) (ftol := P.ftol) (obj := P.obj)
    (i := (⟨m, hm⟩ : Fin p)) hf.one
  have hYlt : ∀ q : Fin p, q.val < m → Function.update acc.1.X ⟨m, hm⟩ U.1 q = acc.1.X q := by
    intro q hq; rw [Function.update_of_ne]; rintro rfl; simp at hq
  have hYm : Function.update acc.1.X ⟨m, hm⟩ U.1 ⟨m, hm⟩ = U.1 := Function.update_self ..
  have hL := hP.best.congr hYlt
  have hne : ∀ q : Fin p, q.val ≠ m → q ≠ ⟨m, hm⟩ := fun q hq h => hq (by rw [h])
  refine ⟨?_, ?_, ?_, ?_, ?_⟩
  · dsimp only
    rw [take_ofFn_update, ← List.append_assoc, ← hP.evals]
  · intro q hq
    dsimp only
    obtain ⟨a, b, c, d⟩ := hP.rest q (by omega)
    have hq' := hne q (by omega)
    rw [Function.update_of_ne hq', Function.update_of_ne hq']
    refine ⟨a, b, ?_⟩
    rcases hcase with ⟨h1, h2, h3, _⟩ | ⟨h1, h2, h3, _⟩
    · rw [h2, h3, Function.update_of_ne hq', Function.update_of_ne hq']; exact ⟨c, d⟩
    · rw [h2, h3]; exact ⟨c, d⟩
  · dsimp only
    rcases hcase with ⟨h1, h2, h3, (⟨h4, h5, h6, _⟩ | ⟨h4, h5, h6, _⟩)⟩ | ⟨h1, h2, h3, h5, h6, _⟩
    · rw [h5, h6]
      have := hL.take hm (by rw [hYm]; exact h4)
      rwa [hYm] at this
    · rw [h5, h6]
      exact hL.skip hm (fun _ => by rw [hYm]; exact h4)
    · rw [h5, h6]
      exact hL.skip hm (fun h => absurd h (by rw [hYm, ← hfm]; exact h1))
  · intro q hq
    dsimp only
    by_cases he : q.val = m
    · have hqm : q = ⟨m, hm⟩ := Fin.ext he
      subst hqm
      rw [hYm]
      rcases hcase with ⟨h1, h2, h3, _⟩ | ⟨h1, h2, h3, _⟩
      · rw [hfm] at h1; rw [h2, h3, Function.update_self, Function.update_self]; exact Or.inl ⟨h1, rfl, rfl⟩
      · rw [hfm] at h1; rw [h2, h3]; exact Or.inr ⟨h1, hpm, hfm⟩
    · have hq' := hne q he
      rw [Function.update_of_ne hq']
      have := hP.personal q (by omega)
      rcases hcase with ⟨h1, h2, h3, _⟩ | ⟨h1, h2, h3, _⟩
      · rw [h2, h3, Function.update_of_ne hq', Function.update_of_ne hq']; exact this
      · rw [h2, h3]; exact this
  · intro q hq
    dsimp only
    by_cases he : q.val = m
    · have hqm : q = ⟨m, hm⟩ := Fin.ext he
      subst hqm
      obtain ⟨v, hv, hl, hx⟩ := hmv
      rw [hXm] at hl
      rw [hYm, Function.update_self]
      refine ⟨acc.1.gbest, acc.1.gfit, r1 ⟨m, hm⟩, r2 ⟨m, hm⟩, v, hL, fun j => ⟨hr1 _ j, hr2 _ j⟩, fun j => ?_, hl, fun j => ?_⟩
      · rw [hv j, hXm, hVm, hpm]
      · rw [hx j, hXm]
    · have hq' := hne q he
      rw [Function.update_of_ne hq', Function.update_of_ne hq']
      obtain ⟨y, c, r1, r2, v, hLq, hrest⟩ := hP.move q (by omega)
      exact ⟨y, c, r1, r2, v, hLq.congr (fun i hi => hYlt i (by omega)), hrest⟩

theorem step_move [FloorRing K] [NumFns K] {sync : Bool} (hf : P.obj.Faithful f) (hR : P.R.Ok)
    (hc : consMap cname = .ok P.cons) {it : Nat} {s s' : State σ K p n} {st : Option Int}
    (h : (alg P sync).step it s = .ok (s', st)) :
    s'.evals = s.evals ++ List.ofFn s'.X ∧
      SwarmMove f sync P.w P.c1 P.c2 cname P.lower P.upper s.swarm s'.swarm := by
  have hr : ∀ g (i : Fin p) (j : Fin n), 0 ≤ (drawMat P.R.rand p n g).1 i j ∧ (drawMat P.R.rand p n g).1 i j < 1 := by
    intro g i j
    obtain ⟨g', hg⟩ := drawMat_mem P.R.rand p n g i j
    rw [hg]; exact ⟨hR.rand_nonneg _, hR.rand_lt_one _⟩
  rw [alg_step] at h
  cases sync with
  | true =>
    obtain ⟨r, hr', hst, rfl⟩ := stepSync_ok h
    obtain ⟨h1, h2, ⟨i, hi, h3, h4⟩, _⟩ := selectionSync_ok hr' hf.pop
    refine ⟨rfl, ?_, ?_, ?_⟩
    · intro i
      obtain ⟨v, hv, hl, hx⟩ := mutation_move (P := P) hc (X := s.X i) (V := s.V i) (pb := s.pbest i)
        (gb := s.gbest) (r1 := (drawMat P.R.rand p n s.rng).1 i)
        (r2 := (drawMat P.R.rand p n (drawMat P.R.rand p n s.rng).2).1 i)
      exact ⟨s.gbest, s.gfit, _, _, v, rfl, fun j => ⟨hr _ i j, hr _ i j⟩, hv, hl, hx⟩
    · intro i
      rcases h2 i with ⟨a, b, c⟩ | ⟨a, b, c⟩
      · exact Or.inl ⟨c, b, a⟩
      · exact Or.inr ⟨c, b, a⟩
    · refine ⟨i, h3, h4, fun q => ?_⟩
      show ¬ r.xfun q < r.xbestfun
      rw [h4]; exact argmin_not_lt hi q
  | false =>
    obtain ⟨r, hr', rfl, _⟩ := stepAsync_ok h
    have := foldl_inv_idx (List.finRange p) (fun m (acc : State σ K p n × Option Int) => Progress P f cname s m acc.1)
      (f := rowAsync P (drawMat P.R.rand p n s.rng).1 (drawMat P.R.rand p n (drawMat P.R.rand p n s.rng).2).1) (by
        intro k hk b hb
        rw [List.length_finRange] at hk
        have := progress_step hf hc (hr s.rng) (hr (drawMat P.R.rand p n s.rng).2) hk hb
        rw [List.getElem_finRange]
        exact this)
      (b := ({ s with rng := (drawMat P.R.rand p n (drawMat P.R.rand p n s.rng).2).2 }, none))
      ⟨by simp, fun q _ => ⟨rfl, rfl, rfl, rfl⟩, Leader.init, fun q hq => by simp at hq, fun q hq => by simp at hq⟩
    rw [List.length_finRange, ← hr'] at this
    refine ⟨by rw [this.evals, List.take_of_length_le (by simp)], ?_, ?_, ?_⟩
    · intro i; exact this.move i i.2
    · intro i; exact this.personal i i.2
    · exact this.best

/-! ### Restart -/

section restart
variable [FloorRing K] [NumFns K] [LawfulNumFns K]

theorem post_restart (hsrt : IsArgsort P.argsort) (hR : P.R.Ok) (hp : 2 ≤ p) (it : Nat) (s : State σ K p n) :
    ∃ W : Finset (Fin p), SwarmRestart resetFit P.lower P.upper W s.swarm (post P it s).swarm ∧
      (W.Nonempty → ∃ g, P.gamma = some g ∧ g ≠ 0) ∧ ((P.gamma = none ∨ P.gamma = some 0) → post P it s = s) := by
  have hq0le : ∀ j, sortLe (s.pbestfit (P.argsort p s.pbestfit ⟨0, by omega⟩)) (s.pbestfit j) := by
    intro j
    have := hsrt p s.pbestfit ⟨0, by omega⟩ ((P.argsort p s.pbestfit).symm j) (by simp [Fin.le_def])
    simpa using this
  have hbest : ∀ i, ¬ s.pbestfit i < s.pbestfit (P.argsort p s.pbestfit ⟨0, by omega⟩) := by
    intro i hlt
    rcases hq0le i with h | h
    · rw [h] at hlt; exact Val.not_nan_lt hlt
    · exact Val.not_lt_of_le' h hlt
  have hid : SwarmRestart resetFit P.lower P.upper ∅ s.swarm s.swarm :=
    ⟨⟨rfl, rfl⟩, fun _ _ => ⟨rfl, rfl, rfl, rfl⟩, fun i hi => by simp at hi, fun _ i hi => by simp at hi, by simp,
      fun i hi => by simp at hi, ⟨_, by simp, hbest⟩⟩
  have hnone : (P.gamma = none ∨ P.gamma = some 0) → post P it s = s := by
    rintro (h | h) <;> simp [post, h]
  rcases post_cases (P := P) it s with h | ⟨gm, hg, hg0, h⟩
  · exact ⟨∅, by rw [h]; exact hid, by simp, hnone⟩
  · rw [h]
    unfold restart
    split_ifs with h1 h2
    · have hnw := numRestart_le_two (p := p) (it := it) (maxiter := P.maxiter) (gamma := gm) hp
      set nw := (numRestart p it P.maxiter gm).toNat with hnwdef
      let W : Finset (Fin p) := Finset.univ.filter fun q => restartPos P.argsort s.pbestfit nw q ≠ none
      have hmem : ∀ q, q ∈ W ↔ p - 1 - ((P.argsort p s.pbestfit).symm q).val < nw := by
        intro q
        rw [Finset.mem_filter]
        simp only [Finset.mem_univ, true_and, restartPos]
        split_ifs with hq <;> simp [hq]
      have hnot : ∀ q, q ∉ W → restartPos P.argsort s.pbestfit nw q = none := by
        intro q hq; simpa [W] using hq
      have hin : ∀ q, q ∈ W → ∃ t, restartPos P.argsort s.pbestfit nw q = some t := by
        intro q hq
        have : restartPos P.argsort s.pbestfit nw q ≠ none := by simpa [W] using hq
        exact Option.ne_none_iff_exists'.1 this
      refine ⟨W, ⟨⟨rfl, rfl⟩, ?_, ?_, ?_, ?_, ?_, ?_⟩, fun _ => ⟨gm, hg, hg0⟩, fun h => ?_⟩
      · intro q hq
        simp only [State.swarm, resetWorst, hnot q hq]
        simp
      · intro q hq
        obtain ⟨t, ht⟩ := hin q hq
        simp only [State.swarm, resetWorst, ht]
        simp
      · intro hb q hq
        obtain ⟨t, ht⟩ := hin q hq
        simp only [State.swarm, resetWorst, ht]
        intro j
        obtain ⟨g', hg'⟩ := drawMat_mem P.R.rand nw n s.rng t j
        dsimp only
        rw [hg']
        exact unif_mem (hb j) (hR.rand_nonneg _) (hR.rand_lt_one _)
      · have hinj : W.card ≤ (Finset.range nw).card := by
          refine Finset.card_le_card_of_injOn (fun q => p - 1 - ((P.argsort p s.pbestfit).symm q).val) ?_ ?_
          · intro q hq; simpa using (hmem q).1 hq
          · intro a _ b _ hab
            dsimp only at hab
            have ha := ((P.argsort p s.pbestfit).symm a).2
            have hb := ((P.argsort p s.pbestfit).symm b).2
            exact (P.argsort p s.pbestfit).symm.injective (Fin.ext (by omega))
        rw [Finset.card_range] at hinj
        omega
      · intro i hi q hq
        have h3 := (hmem i).1 hi
        have h4 : ¬ _ := fun h => hq ((hmem q).2 h)
        have := hsrt p s.pbestfit ((P.argsort p s.pbestfit).symm q) ((P.argsort p s.pbestfit).symm i)
          (by rw [Fin.le_def]; omega)
        simp only [Equiv.apply_symm_apply] at this
        show ¬ s.pbestfit i < s.pbestfit q ∧ (s.pbestfit q = .nan → s.pbestfit i = .nan)
        rcases this with h | h
        · rw [h]; exact ⟨Val.not_nan_lt, fun _ => rfl⟩
        · exact ⟨Val.not_lt_of_le' h, fun hn => absurd hn (Val.ne_nan_left h)⟩
      · refine ⟨_, fun h => ?_, hbest⟩
        have := (hmem _).1 h
        simp at this; omega
      · rw [hg] at h; rcases h with h | h
        · simp at h
        · exact absurd (Option.some.inj h) hg0
    · exact ⟨∅, hid, by simp, fun _ => rfl⟩
    · exact ⟨∅, hid, by simp, fun _ => rfl⟩

end restart

end Stochopy.CPSO
