import Verif.Lemmas.Voronoi
import Verif.Lemmas.Validation
import Verif.Props.Box

/-!
# C29: the neighbourhood algorithm samples Voronoi cells of good models
-/

set_option linter.unusedSectionVars false

namespace Stochopy
open Spec Concrete

namespace NA
variable {K σ : Type} [Field K] [LinearOrder K] [IsStrictOrderedRing K] {p n : Nat} {P : Par σ K n}

theorem scaledDist_unnormalize {lower upper : Vec K n} (hb : ∀ j, lower j < upper j) (x y : Vec K n) :
    scaledDist lower upper (unnormalize lower upper x) (unnormalize lower upper y) = dist2 x y := by
  unfold scaledDist dist2
  refine Finset.sum_congr rfl fun j _ => ?_
  have hs : 0 < upper j - lower j := sub_pos.2 (hb j)
  have hm : spanMask lower upper j = true := by simpa [spanMask] using hb j
  unfold unnormalize
  rw [if_pos hm, if_pos hm]
  congr 1
  rw [div_eq_iff hs.ne']
  ring

/-- The archive and the log of evaluations hold the same models; those of generation `m` are in good cells. -/
structure ICell (P : Par σ K n) (f : Vec K n → Val K) (it : Nat) (s : State σ K p n) : Prop where
  len : s.evals.length = it * p
  perm : (s.All.map fun x => unnormalize P.lower P.upper x.1).Perm s.evals
  val : ∀ x ∈ s.All, x.2 = f (unnormalize P.lower P.upper x.1)
  unit : ∀ x ∈ s.All, Unit (spanMask P.lower P.upper) x.1
  cell : ∀ m i y, 1 ≤ m → i < p → s.evals[m * p + i]? = some y →
    InGoodCell f P.lower P.upper P.nr (s.evals.take (m * p)) y

theorem ICell_step {f : Vec K n → Val K} (hf : P.obj.Faithful f) (hR : P.R.Ok) (hs : IsArgsort P.argsort)
    (hb : ∀ j, P.lower j < P.upper j) (hnr : 1 ≤ P.nr) {it it' : Nat} {s s' : State σ K p n} {st : Option Int}
    (hI : ICell P f it s) (h : step P it' s = .ok (s', st)) : ICell P f (it + 1) s' := by
  obtain ⟨U, r, hU, hr, hst, rfl⟩ := step_ok h
  obtain ⟨h1, _⟩ := selectionSync_ok hr (objN_faithful hf).pop
  have hmask : ∀ j, spanMask P.lower P.upper j = true := fun j => by simpa [spanMask] using hb j
  have hm : ∀ i, Unit (spanMask P.lower P.upper) (U.1 i) := mutation_unit hR hI.unit hU
  refine ⟨?_, ?_, ?_, ?_, ?_⟩
  · simp [hI.len, Nat.add_mul]
  · show (List.map _ (_ ++ _)).Perm (s.evals ++ List.ofFn fun i => unnormalize P.lower P.upper (U.1 i))
    rw [List.map_append, List.map_ofFn]
    exact (List.perm_append_comm).trans (List.Perm.append_right _ hI.perm)
  · intro x hx
    rcases List.mem_append.1 hx with hx | hx
    · obtain ⟨i, rfl⟩ := List.mem_ofFn.1 hx
      exact h1 i
    · exact hI.val x hx
  · intro x hx
    rcases List.mem_append.1 hx with hx | hx
    · obtain ⟨i, rfl⟩ := List.mem_ofFn.1 hx
      exact hm i
    · exact hI.unit x hx
  · intro m i y hm1 hi hy
    change (s.evals ++ List.ofFn fun i => unnormalize P.lower P.upper (U.1 i))[m * p + i]? = some y at hy
    show InGoodCell f P.lower P.upper P.nr ((s.evals ++ List.ofFn fun i => unnormalize P.lower P.upper (U.1 i)).take (m * p)) y
    by_cases hlt : m * p + i < s.evals.length
    · rw [List.getElem?_append_left hlt] at hy
      rw [List.take_append_of_le_length (by omega)]
      exact hI.cell m i y hm1 hi hy
    · rw [List.getElem?_append_right (by omega)] at hy
      have hlen := hI.len
      obtain ⟨hk, hy⟩ := List.getElem?_eq_some_iff.1 hy
      simp only [List.length_ofFn] at hk
      have hmit : m = it := by
        have hu : m * p + i < (it + 1) * p := by rw [Nat.add_mul]; omega
        have a1 : m < it + 1 := by
          by_contra hc
          have : (it + 1) * p ≤ m * p := Nat.mul_le_mul_right p (by omega)
          omega
        have a2 : it < m + 1 := by
          by_contra hc
          have : (m + 1) * p ≤ it * p := Nat.mul_le_mul_right p (by omega)
          rw [Nat.add_mul] at this; omega
        omega
      subst hmit
      rw [← hlen, List.take_left]
      rw [List.getElem_ofFn] at hy
      obtain ⟨v, hv, hcell, hcnt⟩ := mutation_cell hR hs hmask hnr hI.unit hU ⟨m * p + i - s.evals.length, hk⟩
      refine ⟨unnormalize P.lower P.upper v.1, hI.perm.mem_iff.1 (List.mem_map.2 ⟨v, hv, rfl⟩), ?_, ?_⟩
      · intro u hu
        obtain ⟨w, hw, rfl⟩ := List.mem_map.1 (hI.perm.mem_iff.2 hu)
        rw [← hy, scaledDist_unnormalize hb, scaledDist_unnormalize hb]
        exact hcell w hw
      · rw [← hI.perm.countP_eq, List.countP_map]
        refine lt_of_le_of_lt (le_of_eq ?_) hcnt
        refine List.countP_congr fun w hw => ?_
        simp only [Function.comp, decide_eq_true_eq]
        rw [hI.val w hw, hI.val v hv]

end NA

variable {K σ : Type} [Field K] [LinearOrder K] [IsStrictOrderedRing K] [FloorRing K]
variable {env : Env} {R : Rng σ K} {srt : Argsort K} {fuel : Nat} {g : σ}

/-- Without fixed variables, every model of generation `m + 1` lies in the Voronoi cell of one of the `nr` best models
evaluated in the first `m` generations. -/
theorem C29_na_partial (he : env.Ok) (hR : R.Ok) (hs : IsArgsort srt) {a : NA.Args K}
    (hb : GoodStart a.toCommonArgs) (hfree : ∀ j, lo a.toCommonArgs j < hi a.toCommonArgs j)
    {fn : Vec K a.ndim → Val K} (hfn : a.fn = some fn)
    {o : Output σ K a.p a.ndim} (h : NA.minimize env R srt fuel a g = .ok o)
    {nr : Nat} (hnr : (nr : Int) = max 1 ⌊a.nrperc * (a.popsize : K)⌋) :
    ∀ m i y, 1 ≤ m → i < a.p → o.evals[m * a.p + i]? = some y →
      InGoodCell fn (lo a.toCommonArgs) (hi a.toCommonArgs) nr (o.evals.take (m * a.p)) y := by
  obtain ⟨fn', P, s0, r, L, hfn', hv, hobj, hPR, hsrt, hPnr, hlo, hup, hm, hx, hft, hinit, hrun, rfl⟩ :=
    NA.minimize_ok he h
  obtain rfl : fn' = fn := by rw [hfn] at hfn'; exact (Option.some.inj hfn').symm
  have hl : lo a.toCommonArgs = P.lower := hlo.symm
  have hu : hi a.toCommonArgs = P.upper := hup.symm
  have hord : ∀ j, P.lower j < P.upper j := fun j => by rw [← hl, ← hu]; exact hfree j
  have hR' : P.R.Ok := hPR ▸ hR
  have hs' : IsArgsort P.argsort := hsrt ▸ hs
  have hnr1 : 1 ≤ P.nr := by
    rw [hPnr]; unfold NA.Args.nr; omega
  have hnrp : P.nr = nr := by
    have hv' := NA.validate_ok hv
    have h0 : 0 ≤ a.nrperc * (a.popsize : K) := by
      obtain ⟨_, _, _, h2, _, h1, _⟩ := hv'
      have : (0 : K) ≤ (a.popsize : K) := by exact_mod_cast (by omega : (0 : Int) ≤ a.popsize)
      exact mul_nonneg h1.1.le this
    rw [hPnr]; unfold NA.Args.nr pyInt
    rw [if_pos h0, IntParts.floor_eq]; omega
  obtain ⟨l, st, msg, hH, hlen, hlog, hmsg, rfl⟩ := run_hist hrun
  have key := hH.inv_head (fun it s _ => NA.ICell P fn' it s) (by
      obtain ⟨i, hi, rfl⟩ := NA.init_ok hinit
      refine ⟨by simp, ?_, ?_, ?_, ?_⟩
      · show (List.map _ (List.ofFn _)).Perm (List.ofFn _)
        rw [List.map_ofFn]; rfl
      · intro x hx
        obtain ⟨i, rfl⟩ := List.mem_ofFn.1 hx
        exact (NA.objN_faithful hobj).pop _ i
      · intro x hx
        obtain ⟨i, rfl⟩ := List.mem_ofFn.1 hx
        refine NA.normalize_unit ?_
        unfold NA.initPop
        cases hx0 : a.x0Pop with
        | none => exact lhs_mem hR' (fun j => (hord j).le) _ i
        | some X => rw [hlo, hup]; exact goodStart_pop hb hx0 i
      · intro m i y h1 h2 hy
        obtain ⟨h3, _⟩ := List.getElem?_eq_some_iff.1 hy
        have h4 : a.p ≤ m * a.p := Nat.le_mul_of_pos_left _ h1
        have h5 : m * a.p + i < a.p := by simpa using h3
        omega) (by
      intro it s s' st hit hI hn
      have hn' : NA.step P (it + 1) s = .ok (s', st) := by
        have := hn
        unfold Alg.next at this
        split_ifs at this <;> exact this
      exact NA.ICell_step hobj hR' hs' hord hnr1 hI hn') L.s _ rfl
  rw [hl, hu, ← hnrp]
  exact key.cell

/-- The hypotheses hold for the concrete run: its last model is in the cell of one of the two best of ten models. -/
example : ∃ o y, NA.minimize Concrete.env rng stableArgsort 10 naArgs 0 = .ok o ∧ o.evals[2 * 5 + 4]? = some y ∧
    InGoodCell sphere2 (lo common) (hi common) 2 (o.evals.take (2 * 5)) y := by
  obtain ⟨o, h, ht⟩ := returns_iff (r := NA.minimize Concrete.env rng stableArgsort 10 naArgs 0)
    (t := fun o => (o.evals[2 * 5 + 4]?).isSome) (by decide +kernel)
  obtain ⟨y, hy⟩ := Option.isSome_iff_exists.1 ht
  exact ⟨o, y, h, hy, C29_na_partial env_ok rng_ok isArgsort_stable (a := naArgs) common_goodStart (by decide +kernel) rfl h
    (nr := 2) (by decide +kernel) 2 4 y (by decide) (by decide) hy⟩

/-- The box `{2} × [-1, 1]`. -/
def naFixedFirst : NA.Args ℚ :=
  { naArgs with
    bounds := { shape := [2, 2], get := fun l => if l = [1, 0] then -1 else if l = [1, 1] then 1 else 2 }
    fn := some sphere2 }

/-- Does the second generation (of five models) contain one that is outside all good cells? -/
def strays {p n : Nat} (fn : Vec ℚ n → Val ℚ) (lower upper : Vec ℚ n) (nr : Nat) (o : Output Nat ℚ p n) : Bool :=
  decide (∃ y ∈ (o.evals.drop 5).take 5, ¬ InGoodCell fn lower upper nr (o.evals.take 5) y)

theorem strays_iff {p n : Nat} {fn : Vec ℚ n → Val ℚ} {lower upper : Vec ℚ n} {nr : Nat} {o : Output Nat ℚ p n}
    (h : strays fn lower upper nr o = true) :
    ∃ y ∈ (o.evals.drop 5).take 5, ¬ InGoodCell fn lower upper nr (o.evals.take 5) y := of_decide_eq_true h

/-- With a fixed variable the limits of the walk are wrong (the distances are not updated when a coordinate is skipped):
the second generation contains a model outside the cells of the two best models. -/
theorem C29_na_violated : ∃ o, NA.minimize Concrete.env rng stableArgsort 10 naFixedFirst 0 = .ok o ∧
    ∃ y ∈ (o.evals.drop 5).take 5,
      ¬ InGoodCell sphere2 (lo naFixedFirst.toCommonArgs) (hi naFixedFirst.toCommonArgs) 2 (o.evals.take 5) y := by
  obtain ⟨o, h, ht⟩ := returns_iff (r := NA.minimize Concrete.env rng stableArgsort 10 naFixedFirst 0)
    (t := strays sphere2 (lo naFixedFirst.toCommonArgs) (hi naFixedFirst.toCommonArgs) 2)
    (by decide +kernel)
  exact ⟨o, h, strays_iff ht⟩

end Stochopy
