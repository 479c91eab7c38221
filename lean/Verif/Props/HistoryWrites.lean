import Verif.Lemmas.HistoryWrites
import Verif.Spec.CallbackWrites
import Verif.Props.CallbackWrites

set_option linter.unusedSectionVars false

/-!
# C112: a callback of a sampler may write into the history it is given

The claim: whatever the callback does to the state it is given, the chain goes on as without it (`SameChain`), and the result differs only
in the rows that were written (`RowsLeft`).

It is false: `state.x` is the row of the current sample whenever that one is the best so far, and in the first call `state.xall`,
`state.funall` contain the current sample (`C112_*_violated`).  It is true of callbacks that leave the current row as it is
(`C112_mcmc_partial`, `C112_hmc_partial`).  The `x` of the result is then what was left in the row of the best sample; for `hmc`, which
looks for the least element of `funall` at the end, this needs a callback that does not write into `funall`
(`C112_hmc_best_violated`).  Values stay with their samples if the callback moves points to points of the same value only
(`C112_value_*_partial`).
-/

namespace Stochopy
open Spec Sampling Concrete

section
variable {K σ : Type} [Zero K] [One K] [Add K] [Sub K] [Mul K] [Div K] [Neg K] [NatCast K] [IntCast K] [Pow K ℕ] [ArrayOps K] [LinearOrder K] [NumFns K]
variable {R : Rng σ K} {fuel : Nat} {g : σ}

theorem attach_rows {α : Type} {c : Nat → Nat → Nat → α → α} {B : Nat → Nat → Prop} {ra : Bool} {xs ys l : List α}
    (h : RowsLeft c B xs ys)
    (hl : Sampling.attach ra xs = some l) : ∃ l', Sampling.attach ra ys = some l' ∧ RowsLeft c B l l' := by
  cases ra with
  | false => simp [Sampling.attach] at hl
  | true =>
    simp only [Sampling.attach, if_true, Option.some.injEq] at hl ⊢
    exact ⟨ys, rfl, hl ▸ h⟩

theorem C112_mcmc_partial [IntParts K] {a : MCMC.Args K} {w : Writes K a.ndim} (hx : OldRows w.x) (hf : OldRows w.f)
    (hc : a.callback = some true) {o : Sampling.Output σ K a.ndim} (h : (MCMC.sample R fuel a g).1 = .ok o) :
    ∃ o', (MCMC.sampleH R fuel a w g).1 = .ok o' ∧ SameChain o o' ∧ o'.fval = o.fval ∧ (∃ i, Rewrites w.x (ShownBest o.cbs) i o.x o.cbs.length o'.x) ∧
      (∀ xs, o.xall = some xs → ∃ ys, o'.xall = some ys ∧ RowsLeft w.x (ShownBest o.cbs) xs ys) ∧
      ∀ fs, o.funall = some fs → ∃ ys, o'.funall = some ys ∧ RowsLeft w.f (ShownBest o.cbs) fs ys := by
  obtain ⟨s, t, hR, rfl, ht⟩ := MCMC.sampleH_rel hx hf (by rw [hc]; rfl) h
  refine ⟨_, ht, ⟨hR.evals, hR.rng, rfl, rfl, ?_, hR.cbs⟩, hR.fmin, ⟨s.imin, ?_⟩, fun xs h => attach_rows hR.rows h,
    fun fs h => attach_rows hR.vals h⟩
  · simp only [MCMC.finish, hR.nacc]
  · have := hR.row hR.best s.xcur t.xcur
    simp only [MCMC.finish, hR.imin]
    exact this

theorem C112_hmc_partial {a : HMC.Args K} {w : Writes K a.ndim} (hx : OldRows w.x) (hf : OldRows w.f)
    (hc : a.callback = some true) {o : Sampling.Output σ K a.ndim} (h : (HMC.sample R a g).1 = .ok o) :
    ∃ o', (HMC.sampleH R a w g).1 = .ok o' ∧ SameChain o o' ∧
      ((∀ k m i f, w.f k m i f = f) → o'.fval = o.fval ∧ ∃ i, Rewrites w.x (ShownBest o.cbs) i o.x o.cbs.length o'.x) ∧
      (∀ xs, o.xall = some xs → ∃ ys, o'.xall = some ys ∧ RowsLeft w.x (ShownBest o.cbs) xs ys) ∧
      ∀ fs, o.funall = some fs → ∃ ys, o'.funall = some ys ∧ RowsLeft w.f (ShownBest o.cbs) fs ys := by
  obtain ⟨s, t, hR, hs, ht⟩ := HMC.sampleH_rel hx hf (by rw [hc]; rfl) h
  have hpos : 0 < t.fs.length := by rw [hR.vals.1, hR.len]; exact Nat.lt_of_le_of_lt (Nat.zero_le _) hR.best
  obtain ⟨i, hi⟩ := argmin_ok (fun i => t.fs.get i) hpos
  unfold HMC.finish at ht hs
  rw [hi] at ht
  rw [bind_ok_iff] at hs
  obtain ⟨i0, hi0, hs⟩ := hs
  simp only [Except.ok.injEq] at hs
  subst hs
  refine ⟨_, ht, ⟨hR.evals, hR.rng, rfl, ?_, ?_, hR.cbs⟩, fun hid => ?_, fun xs h => attach_rows hR.rows h,
    fun fs h => attach_rows hR.vals h⟩
  · simp only [hR.evals]
  · simp only [hR.nacc]
  · have hfs : t.fs = s.fs := rowsLeft_id hid hR.vals
    obtain ⟨txs, tfs, tx, tf, tn, ti, tm, tc, te, tr⟩ := t
    obtain rfl : tfs = s.fs := hfs
    dsimp only at hi
    rw [hi0] at hi
    obtain rfl := Except.ok.inj hi
    exact ⟨rfl, i0.val, hR.row (by rw [← hR.len]; exact i0.isLt) _ _⟩

theorem C112_value_mcmc_partial [IntParts K] {a : MCMC.Args K} {w : Writes K a.ndim} {fn : Vec (Val K) a.ndim → Val K}
    (hfn : a.fn = some fn) (hv : ∀ k m i x, fn (w.x k m i x) = fn x) (hf : ∀ k m i f, w.f k m i f = f) {o : Sampling.Output σ K a.ndim}
    (h : (MCMC.sampleH R fuel a w g).1 = .ok o) : SamplesPaired fn o := by
  obtain ⟨s, hI, rfl⟩ := MCMC.sampleH_paired hfn hv hf h
  refine ⟨fun xs fs hx hf => ?_, ?_⟩
  · obtain rfl := attach_some hx
    obtain rfl := attach_some hf
    exact hI.vals
  · rcases hI.best with h | ⟨_, h⟩
    · exact Or.inl h
    · exact Or.inr h.symm

theorem C112_value_hmc_partial {a : HMC.Args K} {w : Writes K a.ndim} {fn : Vec (Val K) a.ndim → Val K}
    (hfn : a.fn = some fn) (hv : ∀ k m i x, fn (w.x k m i x) = fn x) (hf : ∀ k m i f, w.f k m i f = f) {o : Sampling.Output σ K a.ndim}
    (h : (HMC.sampleH R a w g).1 = .ok o) : SamplesPaired fn o ∧ o.fval = fn o.x := by
  obtain ⟨s, hI, hfin⟩ := HMC.sampleH_paired hfn hv hf h
  obtain ⟨i, h1, h2, h3, h4, h5⟩ := HMC.finish_ok hfin
  have hb : o.fval = fn o.x := by
    rw [h1, h2]
    have hlen : s.fs.length = s.xs.length := (congrArg List.length hI.vals).trans (List.length_map ..)
    have hi : i.val < s.xs.length := hlen ▸ i.isLt
    rw [List.getD_eq_getElem?_getD, List.getElem?_eq_getElem hi]
    have : s.fs[i.val]? = (s.xs.map fn)[i.val]? := congrArg (fun l : List (Val K) => l[i.val]?) hI.vals
    rw [List.getElem?_eq_getElem i.isLt, List.getElem?_map, List.getElem?_eq_getElem hi] at this
    exact Option.some.inj this
  refine ⟨⟨fun xs fs hx hf => ?_, Or.inr hb⟩, hb⟩
  rw [h4] at hx; rw [h5] at hf
  obtain rfl := attach_some hx
  obtain rfl := attach_some hf
  exact hI.vals

end

/-! ## Runs -/

namespace Concrete

/-- `def callback(x, state): state.x *= 2`. -/
def doubleBest : Writes ℚ 2 := { x := fun _ m i x => if i = m then fun j => x j + x j else x, f := fun _ _ _ f => f }

/-- `state.xall *= 2`, from the second call on. -/
def doubleOld : Writes ℚ 2 := { x := fun k _ i x => if i + 1 < k then fun j => x j + x j else x, f := fun _ _ _ f => f }

/-- Values converted in place: `state.funall *= -1`, from the second call on. -/
def negateOld : Writes ℚ 2 := { x := fun _ _ _ x => x, f := fun k _ i f => if i + 1 < k then -f else f }

def otherEvals (r : Except PyErr (Sampling.Output Nat ℚ 2)) (o : Sampling.Output Nat ℚ 2) : Bool :=
  returns r fun o' => decide (o'.evals ≠ o.evals)

def otherRows (r : Except PyErr (Sampling.Output Nat ℚ 2)) (o : Sampling.Output Nat ℚ 2) : Bool :=
  returns r fun o' => decide (o'.xall ≠ o.xall)

def otherX (r : Except PyErr (Sampling.Output Nat ℚ 2)) (o : Sampling.Output Nat ℚ 2) : Bool :=
  returns r fun o' => decide (o'.x ≠ o.x)

end Concrete

/-- `state.x *= 2` makes the sampler call the objective on other points. -/
theorem C112_mcmc_violated : ∃ o o', (MCMC.sample rng 10 mcmcCb 0).1 = .ok o ∧ (MCMC.sampleH rng 10 mcmcCb doubleBest 0).1 = .ok o' ∧
    ¬ SameChain o o' := by
  obtain ⟨o, h, ho⟩ := returns_iff (r := (MCMC.sample rng 10 mcmcCb 0).1) (t := otherEvals (MCMC.sampleH rng 10 mcmcCb doubleBest 0).1)
    (by decide +kernel)
  obtain ⟨o', h', ho'⟩ := returns_iff ho
  exact ⟨o, o', h, h', fun hS => of_decide_eq_true ho' hS.evals⟩

theorem C112_hmc_violated : ∃ o o', (HMC.sample rng hmcCb 0).1 = .ok o ∧ (HMC.sampleH rng hmcCb doubleBest 0).1 = .ok o' ∧
    ¬ SameChain o o' := by
  obtain ⟨o, h, ho⟩ := returns_iff (r := (HMC.sample rng hmcCb 0).1) (t := otherEvals (HMC.sampleH rng hmcCb doubleBest 0).1)
    (by decide +kernel)
  obtain ⟨o', h', ho'⟩ := returns_iff ho
  exact ⟨o, o', h, h', fun hS => of_decide_eq_true ho' hS.evals⟩

theorem negateOld_old : OldRows negateOld.x ∧ OldRows negateOld.f :=
  ⟨fun _ _ _ => rfl, fun k m f => by simp [negateOld]⟩

/-- Writing into `funall` makes `hmc` return another sample. -/
theorem C112_hmc_best_violated : ∃ o o', (HMC.sample rng hmcCb 0).1 = .ok o ∧ (HMC.sampleH rng hmcCb negateOld 0).1 = .ok o' ∧
    SameChain o o' ∧ o'.x ≠ o.x := by
  obtain ⟨o, h, ho⟩ := returns_iff (r := (HMC.sample rng hmcCb 0).1) (t := otherX (HMC.sampleH rng hmcCb negateOld 0).1)
    (by decide +kernel)
  obtain ⟨o', h', ho'⟩ := returns_iff ho
  obtain ⟨o'', h'', hS, _⟩ := C112_hmc_partial (a := hmcCb) negateOld_old.1 negateOld_old.2 rfl h
  obtain rfl : o' = o'' := by rw [h'] at h''; exact Except.ok.inj h''
  exact ⟨o, o', h, h', hS, of_decide_eq_true ho'⟩

namespace Concrete

theorem doubleOld_old : OldRows doubleOld.x ∧ OldRows doubleOld.f :=
  ⟨fun k m x => by simp [doubleOld], fun _ _ _ => rfl⟩

/-- Rows are changed, the chain is not. -/
example : ∃ o o', (MCMC.sample rng 10 mcmcCb 0).1 = .ok o ∧ (MCMC.sampleH rng 10 mcmcCb doubleOld 0).1 = .ok o' ∧ SameChain o o' ∧
    o'.xall ≠ o.xall := by
  obtain ⟨o, h, ho⟩ := returns_iff (r := (MCMC.sample rng 10 mcmcCb 0).1) (t := otherRows (MCMC.sampleH rng 10 mcmcCb doubleOld 0).1)
    (by decide +kernel)
  obtain ⟨o', h', ho'⟩ := returns_iff ho
  obtain ⟨o'', h'', hS, _⟩ := C112_mcmc_partial (a := mcmcCb) doubleOld_old.1 doubleOld_old.2 rfl h
  obtain rfl : o' = o'' := by rw [h'] at h''; exact Except.ok.inj h''
  exact ⟨o, o', h, h', hS, of_decide_eq_true ho'⟩

example : ∃ o o', (HMC.sample rng hmcCb 0).1 = .ok o ∧ (HMC.sampleH rng hmcCb doubleOld 0).1 = .ok o' ∧ SameChain o o' ∧
    o'.fval = o.fval ∧ o'.xall ≠ o.xall := by
  obtain ⟨o, h, ho⟩ := returns_iff (r := (HMC.sample rng hmcCb 0).1) (t := otherRows (HMC.sampleH rng hmcCb doubleOld 0).1)
    (by decide +kernel)
  obtain ⟨o', h', ho'⟩ := returns_iff ho
  obtain ⟨o'', h'', hS, hb, _⟩ := C112_hmc_partial (a := hmcCb) doubleOld_old.1 doubleOld_old.2 rfl h
  obtain rfl : o' = o'' := by rw [h'] at h''; exact Except.ok.inj h''
  exact ⟨o, o', h, h', hS, (hb fun _ _ _ _ => rfl).1, of_decide_eq_true ho'⟩

/-- Exchange of two exchangeable components in the best sample. -/
def swapBest : Writes ℚ 2 := { x := fun k m i x => if i = m then swap1 k x else x, f := fun _ _ _ f => f }

theorem bowl_swapBest (k m i : Nat) (x : Vec (Val ℚ) 2) : bowl (swapBest.x k m i x) = bowl x := by
  show bowl (if i = m then swap1 k x else x) = bowl x
  split_ifs
  · exact bowl_swap k x
  · rfl

example : ∃ o o', (MCMC.sample rng 10 mcmcCb 0).1 = .ok o ∧ (MCMC.sampleH rng 10 mcmcCb swapBest 0).1 = .ok o' ∧ o'.evals ≠ o.evals ∧
    SamplesPaired bowl o' := by
  obtain ⟨o, h, ho⟩ := returns_iff (r := (MCMC.sample rng 10 mcmcCb 0).1) (t := otherEvals (MCMC.sampleH rng 10 mcmcCb swapBest 0).1)
    (by decide +kernel)
  obtain ⟨o', h', ho'⟩ := returns_iff ho
  exact ⟨o, o', h, h', of_decide_eq_true ho', C112_value_mcmc_partial (a := mcmcCb) rfl bowl_swapBest (fun _ _ _ _ => rfl) h'⟩

example : ∃ o o', (HMC.sample rng hmcCb 0).1 = .ok o ∧ (HMC.sampleH rng hmcCb swapBest 0).1 = .ok o' ∧ o'.evals ≠ o.evals ∧
    SamplesPaired bowl o' := by
  obtain ⟨o, h, ho⟩ := returns_iff (r := (HMC.sample rng hmcCb 0).1) (t := otherEvals (HMC.sampleH rng hmcCb swapBest 0).1)
    (by decide +kernel)
  obtain ⟨o', h', ho'⟩ := returns_iff ho
  exact ⟨o, o', h, h', of_decide_eq_true ho', (C112_value_hmc_partial (a := hmcCb) rfl bowl_swapBest (fun _ _ _ _ => rfl) h').1⟩

end Concrete

end Stochopy
