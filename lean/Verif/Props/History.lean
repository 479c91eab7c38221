import Verif.Props.Status
import Verif.Props.Runs
import Verif.Lemmas.Rows

/-!
# C11–C14: the recorded history
-/

set_option linter.unusedSectionVars false

namespace Stochopy
open Spec Concrete
variable {K σ : Type} [AddZeroClass K] [One K] [Sub K] [Mul K] [Div K] [Neg K] [NatCast K] [IntCast K] [Pow K ℕ] [ArrayOps K] [IntParts K] [LinearOrder K]
variable {env : Env} {R : Rng σ K} {srt : Argsort K} {fuel : Nat} {g : σ}

/-! ## C11 -/

theorem C11_cpso [NumFns K] (he : env.Ok) {a : CPSO.Args K} {fn : Vec K a.ndim → Val K} (hfn : a.fn = some fn)
    {o : Output σ K a.p a.ndim} (h : CPSO.minimize env R srt fuel a g = .ok o) : HistoryMatches fn o := by
  obtain ⟨fn', P, s0, r, L, hfn', hv, hobj, -, -, rfl, -, -, -, -, -, -, -, -, -, hinit, hrun, rfl⟩ :=
    CPSO.minimize_ok he h
  rw [hfn] at hfn'; cases hfn'
  obtain ⟨i, hi, rfl⟩ := CPSO.init_ok hinit
  intro xs fs hx hf k rx rf hk hk'
  have := run_rows hrun (fun x v => v = fn x) (fun x v => v = fn x) ⟨fun j => hobj.pop _ _, hobj.pop _ _⟩
    (by
      intro l st hH k s hks hk0
      obtain ⟨it, t, st', _, _, ht⟩ := hH.reached (fun _ => True) trivial (fun _ _ _ _ _ _ _ => trivial)
        (fun _ _ _ _ => trivial) k s hks hk0
      exact CPSO.step_pfit hobj ht) xs fs hx hf k rx rf hk hk'
  exact map_of_forall2 (by simpa using this)

theorem C11_pso [NumFns K] (he : env.Ok) {a : PSO.Args K} {fn : Vec K a.ndim → Val K} (hfn : a.fn = some fn)
    {o : Output σ K a.p a.ndim} (h : PSO.minimize env R srt fuel a g = .ok o) : HistoryMatches fn o :=
  C11_cpso (a := a.toCPSO) he hfn h

/-- Both methods have runs with three recorded generations of five points. -/
example : (∃ o, CPSO.minimize Concrete.env rng stableArgsort 10 cpsoArgs 0 = .ok o ∧ HistoryShape 5 o ∧ o.res.nit = 3 ∧
      HistoryMatches sphere2 o) ∧
    (∃ o, PSO.minimize Concrete.env rng stableArgsort 10 psoArgs 0 = .ok o ∧ HistoryShape 5 o ∧ o.res.nit = 3 ∧
      HistoryMatches sphere2 o) := by
  obtain ⟨o, h, ht⟩ := cpso_run
  obtain ⟨o', h', ht'⟩ := pso_run
  simp only [improves, Bool.and_eq_true, beq_iff_eq] at ht ht'
  exact ⟨⟨o, h, hist5 ((C10_cpso env_ok h).1 rfl), ht.1, C11_cpso env_ok rfl h⟩,
    ⟨o', h', hist5 ((C10_pso env_ok h').1 rfl), ht'.1, C11_pso env_ok rfl h'⟩⟩

/-! ## C12

The full claim is `HistoryMatches fn o`. It is false for `de`: after a rejected trial vector, `xall` holds the surviving
member but `funall` the value of the rejected trial vector. -/

theorem C12_de_violated : ∃ (a : DE.Args ℚ) (fn : Vec ℚ a.ndim → Val ℚ) (o : Output Nat ℚ a.p a.ndim),
    a.fn = some fn ∧ DE.minimize Concrete.env rng 10 a 0 = .ok o ∧ ¬ HistoryMatches fn o := by
  obtain ⟨o, h, ht⟩ := returns_iff (r := DE.minimize Concrete.env rng 10 deArgs 0)
    (t := fun o => match o.res.xall, o.res.funall with
      | some xs, some fs => match xs[1]?, fs[1]? with
        | some rx, some rf => decide (rf ≠ rx.map sphere2)
        | _, _ => false
      | _, _ => false) (by decide +kernel)
  refine ⟨deArgs, sphere2, o, rfl, h, ?_⟩
  intro hm
  split at ht
  · rename_i xs fs h1 h2
    split at ht
    · rename_i rx rf h3 h4
      have := hm xs fs h1 h2 1 rx rf h3 h4
      exact absurd this (of_decide_eq_true ht)
    · simp at ht
  · simp at ht

/-- What does hold for `de`: the initial generation is right, a recorded value is never below the value of the recorded
point, and recorded points have been evaluated. Missing: equality in the later generations (false). -/
theorem C12_de_partial (he : env.Ok) {a : DE.Args K} {fn : Vec K a.ndim → Val K} (hfn : a.fn = some fn)
    {o : Output σ K a.p a.ndim} (h : DE.minimize env R fuel a g = .ok o) :
    ∀ xs fs, o.res.xall = some xs → o.res.funall = some fs →
      ∀ (k : Nat) (rx : List (Vec K a.ndim)) (rf : List (Val K)), xs[k]? = some rx → fs[k]? = some rf →
        (k = 0 → rf = rx.map fn) ∧ List.Forall₂ (fun x v => ¬ v < fn x ∧ x ∈ o.evals) rx rf := by
  obtain ⟨fn', P, s0, r, L, hfn', hv, hobj, -, -, -, -, -, -, -, -, -, hstr, hinit, hrun, rfl⟩ := DE.minimize_ok he h
  rw [hfn] at hfn'; cases hfn'
  have hl := DE.laws (P := P) a.sync hstr
  obtain ⟨l0, st0, _, hH0, -, -, -, hr⟩ := run_hist hrun
  have hsub := hl.ev_subset hH0
  intro xs fs hx hf k rx rf hk hk'
  have h0 : DE.IR fn s0 := by
    obtain ⟨i, hi, rfl⟩ := DE.init_ok hinit
    intro j
    dsimp only
    rw [hobj.pop]
    exact ⟨rfl, Val.lt_irrefl', by simp⟩
  have hb : s0.gfit = fn s0.gbest ∧ s0.gbest ∈ s0.evals ∧ ∀ i, s0.pfit i = fn (s0.X i) := by
    obtain ⟨i, hi, rfl⟩ := DE.init_ok hinit
    exact ⟨hobj.pop _ _, by simp, fun j => hobj.pop _ _⟩
  have hs0 := hsub s0 hH0.mem_init
  have key := run_rows hrun (fun x v => v = fn x ∧ x ∈ L.s.evals) (fun x v => ¬ v < fn x ∧ x ∈ L.s.evals)
    ⟨fun j => ⟨hb.2.2 j, hs0 (h0 j).2.2⟩, hb.1, hs0 hb.2.1⟩
    (by
      intro l st hH k s hks hk0 i
      have hmem : s ∈ L.s :: l := List.mem_reverse.1 (List.mem_of_getElem? hks)
      have hI := hH.inv (DE.IR fn) h0 (fun _ _ _ _ _ hI hs => DE.IR_step hobj hI hs) (fun _ _ _ h => h) s hmem
      exact ⟨(hI i).2.1, hl.ev_subset hH s hmem (hI i).2.2⟩) xs fs hx hf k rx rf hk hk'
  by_cases hk0 : k = 0
  · rw [if_pos hk0] at key
    refine ⟨fun _ => map_of_forall2 (key.imp fun _ _ h => h.1), key.imp ?_⟩
    rintro x v ⟨rfl, h2⟩
    exact ⟨Val.lt_irrefl', h2⟩
  · rw [if_neg hk0] at key
    exact ⟨fun h => absurd h hk0, key⟩

example : ∃ o, DE.minimize Concrete.env rng 10 deArgs 0 = .ok o ∧ HistoryShape 5 o ∧ o.res.nit = 3 := by
  obtain ⟨o, h, ht⟩ := de_run
  simp only [improves, Bool.and_eq_true, beq_iff_eq] at ht
  exact ⟨o, h, hist5 ((C10_de env_ok h).1 rfl), ht.1⟩

/-! ## C13

The full claim is `HistoryMatches fn o` and all recorded points in the bounds. It is false for `na`: the first entry of
`xall` is stored in normalised coordinates. -/

theorem C13_na_violated : ∃ (a : NA.Args ℚ) (fn : Vec ℚ a.ndim → Val ℚ) (o : Output Nat ℚ a.p a.ndim),
    a.fn = some fn ∧ NA.minimize Concrete.env rng stableArgsort 10 a 0 = .ok o ∧ ¬ HistoryMatches fn o := by
  obtain ⟨o, h, ht⟩ := returns_iff (r := NA.minimize Concrete.env rng stableArgsort 10 naArgs 0)
    (t := fun o => match o.res.xall, o.res.funall with
      | some xs, some fs => match xs[0]?, fs[0]? with
        | some rx, some rf => decide (rf ≠ rx.map sphere2)
        | _, _ => false
      | _, _ => false) (by decide +kernel)
  refine ⟨naArgs, sphere2, o, rfl, h, ?_⟩
  intro hm
  split at ht
  · rename_i xs fs h1 h2
    split at ht
    · rename_i rx rf h3 h4
      have := hm xs fs h1 h2 0 rx rf h3 h4
      exact absurd this (of_decide_eq_true ht)
    · simp at ht
  · simp at ht

/-- The point of the search box with relative coordinates `x` (a fixed coordinate is at its bound). -/
def fromUnit {n : Nat} (lower upper x : Vec K n) : Vec K n := fun j =>
  if 0 < upper j - lower j then x j * (upper j - lower j) + lower j else upper j

/-- What does hold for `na`: all entries but the first match; the first holds relative coordinates.
Missing: the first entry (false), feasibility of the recorded points (see `C28`). -/
theorem C13_na_partial (he : env.Ok) {a : NA.Args K} {fn : Vec K a.ndim → Val K} (hfn : a.fn = some fn)
    {o : Output σ K a.p a.ndim} (h : NA.minimize env R srt fuel a g = .ok o) :
    ∀ xs fs, o.res.xall = some xs → o.res.funall = some fs →
      ∀ (k : Nat) (rx : List (Vec K a.ndim)) (rf : List (Val K)), xs[k]? = some rx → fs[k]? = some rf →
        (0 < k → rf = rx.map fn) ∧ (k = 0 → rf = rx.map fun x => fn (fromUnit a.lower a.upper x)) := by
  obtain ⟨fn', P, s0, r, L, hfn', hv, hobj, -, -, -, hlo, hup, -, -, -, hinit, hrun, rfl⟩ := NA.minimize_ok he h
  rw [hfn] at hfn'; cases hfn'
  obtain ⟨i, hi, rfl⟩ := NA.init_ok hinit
  have hun : ∀ x, NA.unnormalize P.lower P.upper x = fromUnit a.lower a.upper x := by
    intro x; funext j
    simp only [NA.unnormalize, NA.spanMask, fromUnit, ← hlo, ← hup, decide_eq_true_eq]
  intro xs fs hx hf k rx rf hk hk'
  have key := run_rows hrun (fun x v => v = fn (fromUnit a.lower a.upper x)) (fun x v => v = fn x)
    ⟨fun j => by rw [← hun]; exact (NA.objN_faithful hobj).pop _ _, by
      rw [← hun]; exact (NA.objN_faithful hobj).pop _ _⟩
    (by
      intro l st hH k s hks hk0 i
      obtain ⟨it, t, st', _, _, ht⟩ := hH.reached (fun _ => True) trivial (fun _ _ _ _ _ _ _ => trivial)
        (fun _ _ _ _ => trivial) k s hks hk0
      obtain ⟨U, q, _, hq, _, rfl⟩ := NA.step_ok ht
      exact (selectionSync_ok hq (NA.objN_faithful hobj).pop).1 i) xs fs hx hf k rx rf hk hk'
  by_cases hk0 : k = 0
  · rw [if_pos hk0] at key
    exact ⟨fun h => by omega, fun _ => map_of_forall2 key⟩
  · rw [if_neg hk0] at key
    exact ⟨fun _ => map_of_forall2 key, fun h => absurd h hk0⟩

example : ∃ o, NA.minimize Concrete.env rng stableArgsort 10 naArgs 0 = .ok o ∧ HistoryShape 5 o ∧ o.res.nit = 3 := by
  obtain ⟨o, h, ht⟩ := na_run
  simp only [improves, Bool.and_eq_true, beq_iff_eq] at ht
  exact ⟨o, h, hist5 ((C10_na env_ok h).1 rfl), ht.1⟩

/-! ## C14

The claim is that `maxiter = 1` gives one generation. For `de`, `pso`, `cpso` and `na` it fails on every input: a
run that returns has performed two generations, and no run with `return_all` returns. -/

theorem C14_de_violated (he : env.Ok) {a : DE.Args K} (hm : a.maxiter = 1) {o : Output σ K a.p a.ndim}
    (h : DE.minimize env R fuel a g = .ok o) : o.res.nit = 2 ∧ o.evals.length = 2 * a.p ∧ a.returnAll = false := by
  have h1 := C05_de he h
  have h2 := C04_de he h
  rw [hm] at h1
  refine ⟨by omega, by rw [← h2.1, h2.2.1, show o.res.nit = 2 by omega, Nat.mul_comm], ?_⟩
  obtain ⟨fn', P, s0, r, L, hfn', hv, hobj, -, -, -, -, -, -, -, -, -, hstr, hinit, hrun, rfl⟩ := DE.minimize_ok he h
  by_contra hc
  have := run_maxiter_of_returnAll hrun (by simpa [CommonArgs.cfg] using hc)
  have h3 : (2 : Int) ≤ r.nit := by exact_mod_cast h1.1
  simp only [CommonArgs.cfg, hm] at this
  omega

theorem C14_cpso_violated [NumFns K] (he : env.Ok) {a : CPSO.Args K} (hm : a.maxiter = 1) {o : Output σ K a.p a.ndim}
    (h : CPSO.minimize env R srt fuel a g = .ok o) :
    o.res.nit = 2 ∧ o.evals.length = 2 * a.p ∧ a.returnAll = false := by
  have h1 := C05_cpso he h
  have h2 := C04_cpso he h
  rw [hm] at h1
  refine ⟨by omega, by rw [← h2.1, h2.2.1, show o.res.nit = 2 by omega, Nat.mul_comm], ?_⟩
  obtain ⟨fn', P, s0, r, L, hfn', hv, hobj, -, -, rfl, -, -, -, -, -, -, -, -, -, hinit, hrun, rfl⟩ :=
    CPSO.minimize_ok he h
  by_contra hc
  have := run_maxiter_of_returnAll hrun (by simpa [CommonArgs.cfg] using hc)
  have h3 : (2 : Int) ≤ r.nit := by exact_mod_cast h1.1
  simp only [CommonArgs.cfg, hm] at this
  omega

theorem C14_pso_violated [NumFns K] (he : env.Ok) {a : PSO.Args K} (hm : a.maxiter = 1) {o : Output σ K a.p a.ndim}
    (h : PSO.minimize env R srt fuel a g = .ok o) :
    o.res.nit = 2 ∧ o.evals.length = 2 * a.p ∧ a.returnAll = false :=
  C14_cpso_violated (a := a.toCPSO) he hm h

theorem C14_na_violated (he : env.Ok) {a : NA.Args K} (hm : a.maxiter = 1) {o : Output σ K a.p a.ndim}
    (h : NA.minimize env R srt fuel a g = .ok o) :
    o.res.nit = 2 ∧ o.evals.length = 2 * a.p ∧ a.returnAll = false := by
  have h1 := C05_na he h
  have h2 := C04_na he h
  rw [hm] at h1
  refine ⟨by omega, by rw [← h2.1, h2.2.1, show o.res.nit = 2 by omega, Nat.mul_comm], ?_⟩
  obtain ⟨fn', P, s0, r, L, hfn', hv, hobj, -, -, -, -, -, -, -, -, hinit, hrun, rfl⟩ := NA.minimize_ok he h
  by_contra hc
  have := run_maxiter_of_returnAll hrun (by simpa [CommonArgs.cfg] using hc)
  have h3 : (2 : Int) ≤ r.nit := by exact_mod_cast h1.1
  simp only [CommonArgs.cfg, hm] at this
  omega

/-- Such runs exist, and with `return_all` the outcome is an IndexError. -/
example : (∃ o, DE.minimize Concrete.env rng 10 { deArgs with maxiter := 1, returnAll := false } 0 = .ok o ∧
      decide (o.res.nit = 2) = true) ∧
    (∃ o, CPSO.minimize Concrete.env rng stableArgsort 10 { cpsoArgs with maxiter := 1, returnAll := false } 0 = .ok o ∧
      decide (o.res.nit = 2) = true) ∧
    (∃ o, NA.minimize Concrete.env rng stableArgsort 10 { naArgs with maxiter := 1, returnAll := false } 0 = .ok o ∧
      decide (o.res.nit = 2) = true) :=
  ⟨returns_iff (by decide +kernel), returns_iff (by decide +kernel), returns_iff (by decide +kernel)⟩

example : (match DE.minimize Concrete.env rng 10 { deArgs with maxiter := 1 } 0 with
    | .error .indexError => true | _ => false) = true ∧
    (match CPSO.minimize Concrete.env rng stableArgsort 10 { cpsoArgs with maxiter := 1 } 0 with
    | .error .indexError => true | _ => false) = true ∧
    (match NA.minimize Concrete.env rng stableArgsort 10 { naArgs with maxiter := 1 } 0 with
    | .error .indexError => true | _ => false) = true :=
  ⟨by decide +kernel, by decide +kernel, by decide +kernel⟩

end Stochopy
