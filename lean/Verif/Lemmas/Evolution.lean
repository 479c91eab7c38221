import Verif.Lemmas.Pairs
import Verif.Lemmas.Box
import Verif.Spec.Evolution

/-! One generation of DE and of the particle swarms. -/

set_option linter.unusedSectionVars false

namespace Stochopy
open Spec
variable {K : Type} [AddZeroClass K] [One K] [Sub K] [Mul K] [Div K] [Neg K] [NatCast K] [IntCast K] [Pow K ℕ] [ArrayOps K] [LinearOrder K] {p n : Nat} {f : Vec K n → Val K} {best : Vec K n} {bestfit : Val K}
  {fit : Fin p → Val K} {ys ys' : Pop K p n} {m : Nat} {y : Vec K n} {c : Val K}

theorem Spec.Leader.init : Leader f best bestfit fit ys 0 best bestfit :=
  ⟨Or.inl ⟨rfl, rfl⟩, fun i hi => by simp at hi⟩

theorem Spec.Leader.congr (h : Leader f best bestfit fit ys m y c) (he : ∀ i : Fin p, i.val < m → ys' i = ys i) :
    Leader f best bestfit fit ys' m y c := by
  refine ⟨h.1.imp id fun ⟨i, a, b, d⟩ => ⟨i, a, by rw [he i a]; exact b, d⟩, fun i hi => ?_⟩
  rw [he i hi]; exact h.2 i hi

theorem Spec.Leader.fit_congr {fit' : Fin p → Val K} (h : Leader f best bestfit fit ys m y c)
    (he : ∀ i : Fin p, fit' i = fit i) : Leader f best bestfit fit' ys m y c := by
  rw [funext he]; exact h

theorem Spec.Leader.take (h : Leader f best bestfit fit ys m y c) (hm : m < p) (hc : f (ys ⟨m, hm⟩) ≤ c) :
    Leader f best bestfit fit ys (m + 1) (ys ⟨m, hm⟩) (f (ys ⟨m, hm⟩)) := by
  refine ⟨Or.inr ⟨⟨m, hm⟩, by simp, rfl, rfl, ?_⟩, fun i hi hf => ?_⟩
  · rcases h.1 with ⟨_, h⟩ | ⟨_, _, _, _, h⟩
    · rw [← h]; exact hc
    · exact Val.le_trans' hc h
  · by_cases hi' : i.val < m
    · exact fun hlt => h.2 i hi' hf (Val.lt_of_lt_of_le' hlt hc)
    · have : i = ⟨m, hm⟩ := Fin.ext (by simp; omega)
      subst this
      exact Val.lt_irrefl'

theorem Spec.Leader.skip (h : Leader f best bestfit fit ys m y c) (hm : m < p)
    (hc : f (ys ⟨m, hm⟩) ≤ fit ⟨m, hm⟩ → ¬ f (ys ⟨m, hm⟩) ≤ c) : Leader f best bestfit fit ys (m + 1) y c := by
  refine ⟨h.1.imp id fun ⟨i, a, b⟩ => ⟨i, by omega, b⟩, fun i hi hf => ?_⟩
  by_cases hi' : i.val < m
  · exact h.2 i hi' hf
  · have : i = ⟨m, hm⟩ := Fin.ext (by simp; omega)
    subst this
    exact fun hlt => hc hf (Val.le_of_lt' hlt)

theorem argmin_not_lt {v : Fin p → Val K} {i : Fin p} (h : argmin v = .ok i) (j : Fin p) : ¬ v j < v i := by
  intro hlt
  have hn : v i ≠ .nan := by intro hn; rw [hn] at hlt; cases hv : v j <;> rw [hv] at hlt <;> simp at hlt
  have := argmin_le h hn j
  exact Val.lt_irrefl' (Val.lt_of_lt_of_le' hlt this)

theorem take_ofFn_update {α : Type} {p m : Nat} (hm : m < p) (Y : Fin p → α) (y : α) :
    (List.ofFn (Function.update Y ⟨m, hm⟩ y)).take (m + 1) = (List.ofFn Y).take m ++ [y] := by
  apply List.ext_getElem?
  intro k
  by_cases hk : k < m
  · rw [List.getElem?_append_left (by simp; omega), List.getElem?_take_of_lt (by omega), List.getElem?_take_of_lt hk,
      List.getElem?_ofFn, List.getElem?_ofFn]
    have hkp : k < p := by omega
    simp only [hkp, dite_true]
    rw [Function.update_of_ne]
    intro h; have := congrArg Fin.val h; simp at this; omega
  · rw [List.getElem?_append_right (by simp; omega)]
    by_cases he : k = m
    · subst he
      rw [List.getElem?_take_of_lt (by omega), List.getElem?_ofFn]
      have : min k p = k := by omega
      simp [hm, this]
    · rw [List.getElem?_eq_none (by simp; omega), List.getElem?_eq_none (by simp; omega)]

end Stochopy

namespace Stochopy.DE
open Spec
variable {K σ : Type} [Field K] [LinearOrder K] [IsStrictOrderedRing K] {p n : Nat}
variable {P : Par σ K p n} {f : Vec K n → Val K}

theorem del_ne (i : Fin p) (k : Fin (p - 1)) : del i k ≠ i := by
  intro h
  have := congrArg Fin.val h
  unfold del at this
  split_ifs at this <;> simp at this <;> omega

theorem del_inj (i : Fin p) : Function.Injective (del i) := by
  intro a b h
  have := congrArg Fin.val h
  unfold del at this
  ext
  split_ifs at this <;> simp at this <;> omega

theorem donors_ne (i : Fin p) (π : Equiv.Perm (Fin (p - 1))) (k : Fin (p - 1)) : donors i π k ≠ i := del_ne i _

theorem donors_inj (i : Fin p) (π : Equiv.Perm (Fin (p - 1))) : Function.Injective (donors i π) :=
  (del_inj i).comp π.injective

theorem donor_ok {d : Fin (p - 1) → Fin p} {k : Nat} {a : Fin p} (h : donor d k = .ok a) :
    ∃ hk : k < p - 1, a = d ⟨k, hk⟩ := by
  unfold donor at h
  split_ifs at h with hk
  exact ⟨hk, (Except.ok.inj h).symm⟩

theorem donor_eq {d : Fin (p - 1) → Fin p} {k : Nat} (hk : k < p - 1) : donor d k = .ok (d ⟨k, hk⟩) := by
  unfold donor; rw [dif_pos hk]

theorem donor_err {d : Fin (p - 1) → Fin p} {k : Nat} (hk : ¬ k < p - 1) : donor d k = .error .indexError := by
  unfold donor; rw [dif_neg hk]

theorem donors_nodup (i : Fin p) (π : Equiv.Perm (Fin (p - 1))) (l : List (Fin (p - 1))) (hl : l.Nodup) :
    (i :: l.map (donors i π)).Nodup := by
  rw [List.nodup_cons]
  refine ⟨?_, hl.map (donors_inj i π)⟩
  intro h
  obtain ⟨k, _, hk⟩ := List.mem_map.1 h
  exact donors_ne i π k hk

theorem mutant_of_strategy {name : String} {strat : Strategy K p n} (hs : strategyMap name = .ok strat) {i : Fin p}
    {π : Equiv.Perm (Fin (p - 1))} {F : K} {X : Pop K p n} {g v : Vec K n} (h : strat (donors i π) F X g = .ok v) :
    Mutant name F i X g v := by
  unfold strategyMap at hs
  by_cases h1 : name = "rand1bin"
  · rw [if_pos h1] at hs; cases hs
    simp only [rand1bin, bind_ok_iff] at h
    obtain ⟨a, ha, b, hb, c, hc, h⟩ := h
    obtain ⟨ka, rfl⟩ := donor_ok ha
    obtain ⟨kb, rfl⟩ := donor_ok hb
    obtain ⟨kc, rfl⟩ := donor_ok hc
    refine Or.inl ⟨h1, _, _, _, donors_nodup i π [⟨0, ka⟩, ⟨1, kb⟩, ⟨2, kc⟩] (by simp), fun j => ?_⟩
    rw [← Except.ok.inj h]
  rw [if_neg h1] at hs
  by_cases h2 : name = "rand2bin"
  · rw [if_pos h2] at hs; cases hs
    simp only [rand2bin, bind_ok_iff] at h
    obtain ⟨a, ha, b, hb, c, hc, d, hd, e, he, h⟩ := h
    obtain ⟨ka, rfl⟩ := donor_ok ha
    obtain ⟨kb, rfl⟩ := donor_ok hb
    obtain ⟨kc, rfl⟩ := donor_ok hc
    obtain ⟨kd, rfl⟩ := donor_ok hd
    obtain ⟨ke, rfl⟩ := donor_ok he
    refine Or.inr (Or.inl ⟨h2, _, _, _, _, _, donors_nodup i π [⟨0, ka⟩, ⟨1, kb⟩, ⟨2, kc⟩, ⟨3, kd⟩, ⟨4, ke⟩] (by simp),
      fun j => ?_⟩)
    rw [← Except.ok.inj h]
  rw [if_neg h2] at hs
  by_cases h3 : name = "best1bin"
  · rw [if_pos h3] at hs; cases hs
    simp only [best1bin, bind_ok_iff] at h
    obtain ⟨a, ha, b, hb, h⟩ := h
    obtain ⟨ka, rfl⟩ := donor_ok ha
    obtain ⟨kb, rfl⟩ := donor_ok hb
    refine Or.inr (Or.inr (Or.inl ⟨h3, _, _, donors_nodup i π [⟨0, ka⟩, ⟨1, kb⟩] (by simp), fun j => ?_⟩))
    rw [← Except.ok.inj h]
  rw [if_neg h3] at hs
  by_cases h4 : name = "best2bin"
  · rw [if_pos h4] at hs; cases hs
    simp only [best2bin, bind_ok_iff] at h
    obtain ⟨a, ha, b, hb, c, hc, d, hd, h⟩ := h
    obtain ⟨ka, rfl⟩ := donor_ok ha
    obtain ⟨kb, rfl⟩ := donor_ok hb
    obtain ⟨kc, rfl⟩ := donor_ok hc
    obtain ⟨kd, rfl⟩ := donor_ok hd
    refine Or.inr (Or.inr (Or.inr ⟨h4, _, _, _, _, donors_nodup i π [⟨0, ka⟩, ⟨1, kb⟩, ⟨2, kc⟩, ⟨3, kd⟩] (by simp),
      fun j => ?_⟩))
    rw [← Except.ok.inj h]
  rw [if_neg h4] at hs
  exact absurd hs (by simp)

theorem binomial_of_crossover {irand : Nat} (hi : irand < n) {r1 : Vec K n} (hr : ∀ j, r1 j < 1) {CR : K} {x v : Vec K n} :
    Binomial CR x v (crossover irand r1 CR v x) := by
  refine ⟨fun j => ?_, ⟨⟨irand, hi⟩, ?_⟩, fun h => ?_⟩
  · unfold crossover; split_ifs
    · exact Or.inr rfl
    · exact Or.inl rfl
  · unfold crossover; rw [if_pos (Or.inl rfl)]
  · funext j; unfold crossover; rw [if_pos (Or.inr (by rw [h]; exact (hr j).le))]

/-- The name behind a constraint handler. -/
theorem consMap_cases {name : Option String} {c : Cons} (h : consMap name = .ok c) :
    (name = none ∧ c = .none) ∨ (name = some "Random" ∧ c = .random) := by
  unfold consMap at h
  cases name with
  | none => left; simpa using h.symm
  | some s =>
    dsimp only at h
    split_ifs at h with hs
    right; exact ⟨by rw [hs], by simpa using h.symm⟩

theorem repaired_random {lower upper u r : Vec K n} (hb : ∀ j, lower j ≤ upper j) (h0 : ∀ j, 0 ≤ r j) (h1 : ∀ j, r j < 1) :
    Repaired (some "Random") lower upper u (randomRow lower upper u r) := by
  refine Or.inr ⟨rfl, fun j => ⟨fun h => ?_, fun h => randomRow_mem hb h0 h1 j⟩⟩
  unfold randomRow
  rw [if_neg]
  push Not; exact h

variable {name : String} {cname : Option String}

theorem candSync_trial (hR : P.R.Ok) (hb : ∀ j, P.lower j ≤ P.upper j) (hs : strategyMap name = .ok P.strat)
    (hc : consMap cname = .ok P.cons) {X : Pop K p n} {gb : Vec K n} {g : σ} {U : Pop K p n × σ}
    (h : candSync P X gb g = .ok U) (i : Fin p) :
    ∃ v u, Mutant name P.F i X gb v ∧ Binomial P.CR (X i) v u ∧ Repaired cname P.lower P.upper u (U.1 i) := by
  unfold candSync at h
  rw [bind_ok_iff] at h
  obtain ⟨V, hV, h⟩ := h
  rw [bind_ok_iff] at h
  obtain ⟨_, hn, h⟩ := h
  have hn' : 0 < n := by
    unfold checkDim at hn; split_ifs at hn with h0; omega
  simp only [Except.ok.injEq] at h
  subst h
  have hVi := (seqFin_ok_iff.1 hV) i
  refine ⟨V i, crossover ((drawVec (P.R.randint n) p (drawVec (P.R.perm (p - 1)) p (drawMat P.R.rand p n g).2).2).1 i)
    ((drawMat P.R.rand p n g).1 i) P.CR (V i) (X i), mutant_of_strategy hs hVi, binomial_of_crossover ?_ ?_, ?_⟩
  · obtain ⟨g', hg⟩ := drawVec_mem (P.R.randint n) p (drawVec (P.R.perm (p - 1)) p (drawMat P.R.rand p n g).2).2 i
    rw [hg]; exact hR.randint_lt n _ hn'
  · intro j
    obtain ⟨g', hg⟩ := drawMat_mem P.R.rand p n g i j
    rw [hg]; exact hR.rand_lt_one _
  · rcases consMap_cases hc with ⟨rfl, hk⟩ | ⟨rfl, hk⟩
    · rw [hk]; exact Or.inl ⟨rfl, rfl⟩
    · rw [hk]
      refine repaired_random hb ?_ ?_
      · intro j
        obtain ⟨g', hg⟩ := drawMat_mem P.R.rand p n (drawVec (P.R.randint n) p
          (drawVec (P.R.perm (p - 1)) p (drawMat P.R.rand p n g).2).2).2 i j
        rw [hg]; exact hR.rand_nonneg _
      · intro j
        obtain ⟨g', hg⟩ := drawMat_mem P.R.rand p n (drawVec (P.R.randint n) p
          (drawVec (P.R.perm (p - 1)) p (drawMat P.R.rand p n g).2).2).2 i j
        rw [hg]; exact hR.rand_lt_one _

theorem candAsync_trial (hR : P.R.Ok) (hb : ∀ j, P.lower j ≤ P.upper j) (hs : strategyMap name = .ok P.strat)
    (hc : consMap cname = .ok P.cons) {X : Pop K p n} {gb r1 : Vec K n} (hr : ∀ j, r1 j < 1) {g : σ} {i : Fin p}
    {U : Vec K n × σ} (h : candAsync P r1 i X gb g = .ok U) :
    ∃ v u, Mutant name P.F i X gb v ∧ Binomial P.CR (X i) v u ∧ Repaired cname P.lower P.upper u U.1 := by
  unfold candAsync at h
  rw [bind_ok_iff] at h
  obtain ⟨V, hV, h⟩ := h
  rw [bind_ok_iff] at h
  obtain ⟨_, hn, h⟩ := h
  have hn' : 0 < n := by
    unfold checkDim at hn; split_ifs at hn with h0; omega
  simp only [Except.ok.injEq] at h
  subst h
  refine ⟨V, crossover (P.R.randint n (P.R.perm (p - 1) g).2).1 r1 P.CR V (X i), mutant_of_strategy hs hV,
    binomial_of_crossover (hR.randint_lt n _ hn') hr, ?_⟩
  rcases consMap_cases hc with ⟨rfl, hk⟩ | ⟨rfl, hk⟩
  · rw [hk]; exact Or.inl ⟨rfl, rfl⟩
  · rw [hk]
    refine repaired_random hb ?_ ?_
    · intro j
      obtain ⟨g', hg⟩ := drawVec_mem P.R.rand n (P.R.randint n (P.R.perm (p - 1) g).2).2 j
      rw [hg]; exact hR.rand_nonneg _
    · intro j
      obtain ⟨g', hg⟩ := drawVec_mem P.R.rand n (P.R.randint n (P.R.perm (p - 1) g).2).2 j
      rw [hg]; exact hR.rand_lt_one _

/-- Points of the state carry their own values. -/
def IE (f : Vec K n → Val K) (s : State σ K p n) : Prop :=
  (∀ i, s.pbestfit i = f (s.X i)) ∧ s.gfit = f s.gbest

/-- Progress of an immediate generation after `m` individuals. -/
structure Progress (P : Par σ K p n) (f : Vec K n → Val K) (name : String) (cname : Option String) (s : State σ K p n)
    (m : Nat) (t : State σ K p n) (Y : Pop K p n) : Prop where
  evals : t.evals = s.evals ++ (List.ofFn Y).take m
  ie : IE f t
  rest : ∀ q : Fin p, m ≤ q.val → t.X q = s.X q
  best : Leader f s.gbest s.gfit s.pbestfit Y m t.gbest t.gfit
  select : ∀ q : Fin p, q.val < m → t.X q = if f (Y q) ≤ f (s.X q) then Y q else s.X q
  trial : ∀ q : Fin p, q.val < m → ∃ g v u,
    Leader f s.gbest s.gfit s.pbestfit Y q g (f g) ∧
    Mutant name P.F q (fun r => if r < q then t.X r else s.X r) g v ∧ Binomial P.CR (s.X q) v u ∧
    Repaired cname P.lower P.upper u (Y q)

theorem progress_step (hf : P.obj.Faithful f) (hR : P.R.Ok) (hb : ∀ j, P.lower j ≤ P.upper j)
    (hs : strategyMap name = .ok P.strat)
    (hc : consMap cname = .ok P.cons) {r1 : Pop K p n} (hr : ∀ i j, r1 i j < 1) {s : State σ K p n} (hI : IE f s)
    {m : Nat} (hm : m < p)
    {acc acc' : State σ K p n × Option Int} {Y : Pop K p n} (hP : Progress P f name cname s m acc.1 Y)
    (h : rowAsync P r1 acc ⟨m, hm⟩ = .ok acc') :
    ∃ y, Progress P f name cname s (m + 1) acc'.1 (Function.update Y ⟨m, hm⟩ y) := by
  obtain ⟨U, r, hU, rfl, rfl⟩ := rowAsync_ok h
  obtain ⟨v, u, hmu, hbi, hre⟩ := candAsync_trial hR hb hs hc (hr _) hU
  obtain ⟨hcf, hcase⟩ := selectionAsync_cases (candi := U.1) (xbest := acc.1.gbest) (gfit := acc.1.gfit) (x := acc.1.X)
        (xfun := acc.1.pbestfit) (xtol := P.xtol) (ftol := P.ftol) (obj := P.obj) (i := (⟨m, hm⟩ : Fin p)) hf.one
  have hXm : acc.1.X ⟨m, hm⟩ = s.X ⟨m, hm⟩ := hP.rest _ (le_refl m)
  have hfm : acc.1.pbestfit ⟨m, hm⟩ = s.pbestfit ⟨m, hm⟩ := by rw [hP.ie.1, hXm, hI.1]
  refine ⟨U.1, ?_⟩
  -- the new population
  have hX' : ∀ q : Fin p, (selectionAsync U.1 acc.1.gbest acc.1.gfit acc.1.X acc.1.pbestfit P.xtol P.ftol P.obj
      (⟨m, hm⟩ : Fin p)).x q = if q.val = m then (if f U.1 ≤ f (s.X q) then U.1 else s.X q) else acc.1.X q := by
    intro q
    rcases hcase with ⟨h1, h2, _⟩ | ⟨h1, h2, _⟩
    · rw [h2]
      by_cases hq : q.val = m
      · have : q = ⟨m, hm⟩ := Fin.ext hq
        subst this
        rw [Function.update_self, if_pos rfl, if_pos]
        rw [← hXm, ← hP.ie.1]; exact h1
      · rw [Function.update_of_ne (fun h => hq (by rw [h])), if_neg hq]
    · rw [h2]
      by_cases hq : q.val = m
      · have : q = ⟨m, hm⟩ := Fin.ext hq
        subst this
        rw [if_pos rfl, if_neg, hXm]
        rw [← hXm, ← hP.ie.1]; exact h1
      · rw [if_neg hq]
  have hYlt : ∀ q : Fin p, q.val < m → Function.update Y ⟨m, hm⟩ U.1 q = Y q := by
    intro q hq; rw [Function.update_of_ne]; rintro rfl; simp at hq
  have hYm : Function.update Y ⟨m, hm⟩ U.1 ⟨m, hm⟩ = U.1 := Function.update_self ..
  have hL := hP.best.congr hYlt
  refine ⟨?_, ⟨?_, ?_⟩, ?_, ?_, ?_, ?_⟩
  · rw [take_ofFn_update, ← List.append_assoc, ← hP.evals]
  · intro q
    dsimp only
    rcases hcase with ⟨h1, h2, h3, _⟩ | ⟨h1, h2, h3, _⟩
    · rw [h2, h3]
      by_cases hq : q = ⟨m, hm⟩
      · subst hq; simp
      · rw [Function.update_of_ne hq, Function.update_of_ne hq]; exact hP.ie.1 q
    · rw [h2, h3]; exact hP.ie.1 q
  · dsimp only
    rcases hcase with ⟨h1, h2, h3, (⟨_, h5, h6, _⟩ | ⟨_, h5, h6, _⟩)⟩ | ⟨h1, h2, h3, h5, h6, _⟩
    · rw [h5, h6]
    · rw [h5, h6]; exact hP.ie.2
    · rw [h5, h6]; exact hP.ie.2
  · intro q hq
    dsimp only
    rw [hX', if_neg (by omega)]
    exact hP.rest q (by omega)
  · dsimp only
    rcases hcase with ⟨h1, h2, h3, (⟨h4, h5, h6, _⟩ | ⟨h4, h5, h6, _⟩)⟩ | ⟨h1, h2, h3, h5, h6, _⟩
    · rw [h5, h6]
      have := hL.take hm (by rw [hYm]; exact h4)
      rwa [hYm] at this
    · rw [h5, h6]
      exact hL.skip hm (fun _ => by rw [hYm]; exact h4)
    · rw [h5, h6]
      exact hL.skip hm (fun h => absurd h (by rw [hYm, ← hfm]; exact h1))
  · intro q hq
    dsimp only
    rw [hX']
    by_cases he : q.val = m
    · have hqm : q = ⟨m, hm⟩ := Fin.ext he
      subst hqm
      rw [if_pos rfl, hYm]
    · rw [if_neg he, hYlt q (by omega)]; exact hP.select q (by omega)
  · intro q hq
    dsimp only
    by_cases he : q.val = m
    · have hqm : q = ⟨m, hm⟩ := Fin.ext he
      subst hqm
      refine ⟨acc.1.gbest, v, u, ?_, ?_, by rw [← hXm]; exact hbi, by rw [hYm]; exact hre⟩
      · rw [← hP.ie.2]; exact hL
      · convert hmu using 1
        funext r
        by_cases hr : r < ⟨m, hm⟩
        · have : r.val < m := hr
          rw [if_pos hr, hX', if_neg (by omega)]
        · have : m ≤ r.val := not_lt.1 hr
          rw [if_neg hr, hP.rest r this]
    · have hlt : q.val < m := by omega
      obtain ⟨g, v, u, hg, hm', hrest⟩ := hP.trial q hlt
      refine ⟨g, v, u, hg.congr (fun i hi => hYlt i (by omega)), ?_, by rw [hYlt q hlt]; exact hrest⟩
      convert hm' using 1
      funext r
      by_cases hr : r < q
      · rw [if_pos hr, if_pos hr, hX', if_neg (by have : r.val < q.val := hr; omega)]
      · rw [if_neg hr, if_neg hr]

/-- One generation. -/
theorem generation {sync : Bool} (hf : P.obj.Faithful f) (hR : P.R.Ok) (hb : ∀ j, P.lower j ≤ P.upper j)
    (hs : strategyMap name = .ok P.strat) (hc : consMap cname = .ok P.cons) {it : Nat} {s s' : State σ K p n}
    {st : Option Int} (hI : IE f s) (h : (alg P sync).step it s = .ok (s', st)) :
    IE f s' ∧ ∃ ys : Pop K p n, s'.evals = s.evals ++ List.ofFn ys ∧
      DEGeneration f sync name P.F P.CR cname P.lower P.upper s.X s'.X s.gbest s'.gbest ys := by
  rw [alg_step] at h
  cases sync with
  | true =>
    obtain ⟨U, r, hU, hr, hst, rfl⟩ := stepSync_ok h
    obtain ⟨h1, h2, ⟨i, hi, h3, h4⟩, _⟩ := selectionSync_ok hr hf.pop
    have hx : ∀ i, r.xfun i = f (r.x i) := by
      intro i
      rcases h2 i with ⟨a, b, _⟩ | ⟨a, b, _⟩
      · rw [a, b]
      · rw [a, b]; exact hI.1 i
    refine ⟨⟨hx, by show r.xbestfun = f r.xbest; rw [h3, h4, hx]⟩, U.1, rfl, ?_, ?_, ?_⟩
    · intro i
      obtain ⟨v, u, hmu, hbi, hre⟩ := candSync_trial hR hb hs hc hU i
      exact ⟨_, v, u, rfl, hmu, hbi, hre⟩
    · intro i
      rcases h2 i with ⟨a, b, c⟩ | ⟨a, b, c⟩
      · rw [hI.1] at c; exact Or.inl ⟨c, b⟩
      · rw [hI.1] at c; exact Or.inr ⟨c, b⟩
    · refine ⟨i, h3, fun q => ?_⟩
      show ¬ f (r.x q) < f r.xbest
      rw [h3, ← hx, ← hx]
      exact argmin_not_lt hi q
  | false =>
    obtain ⟨st0, hfold, _⟩ := stepAsync_ok h
    have hr : ∀ i j, (drawMat P.R.rand p n s.rng).1 i j < 1 := by
      intro i j
      obtain ⟨g', hg⟩ := drawMat_mem P.R.rand p n s.rng i j
      rw [hg]; exact hR.rand_lt_one _
    have := foldlM_inv_idx (List.finRange p) (fun m (acc : State σ K p n × Option Int) =>
      ∃ ys, Progress P f name cname s m acc.1 ys) ?_ ?_ hfold
    · obtain ⟨Y, hP⟩ := this
      rw [List.length_finRange] at hP
      have hfit : s.pbestfit = fun q => f (s.X q) := funext hI.1
      refine ⟨hP.ie, Y, by rw [hP.evals, List.take_of_length_le (by simp)], ?_, ?_, ?_⟩
      · intro i
        obtain ⟨g, v, u, hg, hm, hbi, hre⟩ := hP.trial i i.2
        rw [hI.2, hfit] at hg
        exact ⟨g, v, u, hg, hm, hbi, hre⟩
      · intro i
        have := hP.select i i.2
        split_ifs at this with hc'
        · exact Or.inl ⟨hc', this⟩
        · exact Or.inr ⟨hc', this⟩
      · have := hP.best
        rw [hI.2, hfit, hP.ie.2] at this
        exact this
    · intro m hm acc acc' ⟨ys, hP⟩ hrow
      rw [List.length_finRange] at hm
      rw [List.getElem_finRange] at hrow
      obtain ⟨y, hy⟩ := progress_step hf hR hb hs hc hr hI hm hP (by simpa using hrow)
      exact ⟨_, hy⟩
    · exact ⟨s.X, by simp, hI, fun _ _ => rfl, Leader.init, fun q hq => by simp at hq, fun q hq => by simp at hq⟩

end Stochopy.DE
