import Verif.Lemmas.Optimizer

/-! Invariants of `selection_sync` and `selection_async`. -/

set_option linter.unusedSectionVars false

namespace Stochopy
variable {K : Type} [AddZeroClass K] [One K] [Sub K] [Mul K] [Div K] [Neg K] [NatCast K] [IntCast K] [Pow K ℕ] [ArrayOps K] [LinearOrder K] {p n : Nat}

/-- Values belong to points.  `E x`: the objective `f` has been evaluated at `x`.  `T`: fitness values may have been
replaced by `reset` (CPSO restarts). -/
structure Inv1 (T : Prop) (reset : Val K) (f : Vec K n → Val K) (E : Vec K n → Prop) (x : Pop K p n)
    (fit : Fin p → Val K) (gbest : Vec K n) (gfit : Val K) : Prop where
  fits : ∀ i, (fit i = f (x i) ∧ E (x i)) ∨ (T ∧ fit i = reset)
  low : T → ∃ i, fit i < reset
  best : gfit = f gbest ∧ E gbest

/-- The best value does not get lost. -/
def InvM (fit : Fin p → Val K) (gfit : Val K) : Prop :=
  gfit ≠ .nan → (∀ i, fit i ≠ .nan) ∧ ∃ i, fit i ≤ gfit

/-- The best value is a lower bound of everything evaluated. -/
structure Inv2 (f : Vec K n → Val K) (E : Vec K n → Prop) (fit : Fin p → Val K) (gfit : Val K) : Prop where
  lb : ∀ i, gfit ≤ fit i
  att : ∃ i, fit i ≤ gfit
  all : ∀ x, E x → f x ≠ .nan → gfit ≤ f x

theorem Inv2.ne_nan {f : Vec K n → Val K} {E : Vec K n → Prop} {fit : Fin p → Val K} {gfit : Val K}
    (h : Inv2 f E fit gfit) : gfit ≠ .nan := by
  obtain ⟨i, hi⟩ := h.att; exact Val.ne_nan_right hi

section sync
variable {it : Nat} {cand : Pop K p n} {xbest : Vec K n} {x : Pop K p n} {xfun : Fin p → Val K} {maxiter : Int}
  {xtol : K} {ftol : Val K} {obj : Obj K n} {r : SelSync K p n} {f : Vec K n → Val K}

/-- Everything `selection_sync` does. -/
theorem selectionSync_ok (h : selectionSync it cand xbest x xfun maxiter xtol ftol obj = .ok r)
    (hf : ∀ y : Pop K p n, ∀ i, obj.pop y i = f (y i)) :
    (∀ i, r.candfun i = f (cand i)) ∧
    (∀ i, (r.xfun i = f (cand i) ∧ r.x i = cand i ∧ f (cand i) < xfun i) ∨
          (r.xfun i = xfun i ∧ r.x i = x i ∧ ¬ f (cand i) < xfun i)) ∧
    (∃ i, argmin r.xfun = .ok i ∧ r.xbest = r.x i ∧ r.xbestfun = r.xfun i) ∧
    r.status = (if distLe xbest r.xbest xtol = true ∧ r.xbestfun ≤ ftol then some 0
      else if r.xbestfun ≤ ftol then some 1 else if maxiter ≤ (it : Int) then some (-1) else none) := by
  unfold selectionSync at h
  rw [bind_ok_iff] at h
  obtain ⟨i, hi, h⟩ := h
  simp only [Except.ok.injEq] at h
  subst h
  refine ⟨fun i => hf _ i, fun i => ?_, ⟨i, hi, rfl, rfl⟩, ?_⟩
  · dsimp only
    rw [hf]
    by_cases hc : f (cand i) < xfun i
    · left; simp [hc]
    · right; simp [hc]
  · simp only [Bool.and_eq_true, decide_eq_true_eq]

theorem selectionSync_status (h : selectionSync it cand xbest x xfun maxiter xtol ftol obj = .ok r) :
    r.status = (if distLe xbest r.xbest xtol = true ∧ r.xbestfun ≤ ftol then some 0
      else if r.xbestfun ≤ ftol then some 1 else if maxiter ≤ (it : Int) then some (-1) else none) := by
  unfold selectionSync at h
  rw [bind_ok_iff] at h
  obtain ⟨i, hi, h⟩ := h
  simp only [Except.ok.injEq] at h
  subst h
  simp only [Bool.and_eq_true, decide_eq_true_eq]

theorem selectionSync_codes (h : selectionSync it cand xbest x xfun maxiter xtol ftol obj = .ok r) :
    (r.status = none → (it : Int) < maxiter) ∧ (r.status = some (-1) → maxiter ≤ (it : Int)) ∧
    (∀ k, r.status = some k → k = 0 ∨ k = 1 ∨ k = -1) := by
  rw [selectionSync_status h]
  refine ⟨fun h => ?_, fun h => ?_, fun k h => ?_⟩ <;> split_ifs at h <;> simp_all

theorem selectionSync_ne_outOfFuel :
    selectionSync it cand xbest x xfun maxiter xtol ftol obj ≠ .error .outOfFuel := by
  unfold selectionSync
  intro h
  rw [bind_error_iff] at h
  rcases h with h | ⟨i, _, h⟩
  · exact argmin_ne_outOfFuel _ h
  · simp at h

theorem selectionSync_inv1 {T : Prop} {reset : Val K} {E E' : Vec K n → Prop} {gfit : Val K}
    (h : selectionSync it cand xbest x xfun maxiter xtol ftol obj = .ok r)
    (hf : ∀ y : Pop K p n, ∀ i, obj.pop y i = f (y i)) (hr : reset ≠ .nan)
    (hE : ∀ y, E y → E' y) (hE' : ∀ i, E' (cand i)) (hI : Inv1 T reset f E x xfun xbest gfit) :
    Inv1 T reset f E' r.x r.xfun r.xbest r.xbestfun := by
  obtain ⟨-, hsel, ⟨i, hi, hb, hbf⟩, -⟩ := selectionSync_ok h hf
  have hfit : ∀ i, (r.xfun i = f (r.x i) ∧ E' (r.x i)) ∨ (T ∧ r.xfun i = reset) := by
    intro i
    rcases hsel i with ⟨h1, h2, -⟩ | ⟨h1, h2, -⟩
    · left; rw [h1, h2]; exact ⟨rfl, hE' i⟩
    · rw [h1, h2]
      rcases hI.fits i with h | h
      · exact Or.inl ⟨h.1, hE _ h.2⟩
      · exact Or.inr h
  have hlow : T → ∃ i, r.xfun i < reset := by
    intro t
    obtain ⟨j, hj⟩ := hI.low t
    refine ⟨j, ?_⟩
    rcases hsel j with ⟨h1, -, h3⟩ | ⟨h1, -, -⟩
    · rw [h1]; exact Val.lt_of_lt_of_le' h3 (Val.le_of_lt' hj)
    · rw [h1]; exact hj
  refine ⟨hfit, hlow, ?_⟩
  rw [hb, hbf]
  rcases hfit i with h | ⟨t, h⟩
  · exact h
  · obtain ⟨j, hj⟩ := hlow t
    have := argmin_le hi (by rw [h]; exact hr) j
    rw [h] at this
    exact absurd hj (Val.not_lt_of_le' this)

theorem selectionSync_mono {gfit : Val K}
    (h : selectionSync it cand xbest x xfun maxiter xtol ftol obj = .ok r)
    (hf : ∀ y : Pop K p n, ∀ i, obj.pop y i = f (y i)) (hI : InvM xfun gfit) :
    InvM r.xfun r.xbestfun ∧ sortLe r.xbestfun gfit := by
  obtain ⟨-, hsel, ⟨i, hi, hb, hbf⟩, -⟩ := selectionSync_ok h hf
  refine ⟨fun hn => ⟨fun j => ?_, ?_⟩, ?_⟩
  · rw [hbf] at hn
    exact Val.ne_nan_right (argmin_le hi hn j)
  · exact ⟨i, by rw [hbf] at hn ⊢; exact Val.le_refl' hn⟩
  · by_cases hg : gfit = .nan
    · exact Or.inl hg
    · right
      obtain ⟨hnn, j, hj⟩ := hI hg
      have hnn' : ∀ k, r.xfun k ≠ .nan := by
        intro k
        rcases hsel k with ⟨h1, -, h3⟩ | ⟨h1, -, -⟩
        · rw [h1]; exact Val.ne_nan_left_lt h3
        · rw [h1]; exact hnn k
      have h1 : r.xfun i ≤ r.xfun j := argmin_le hi (hnn' i) j
      have h2 : r.xfun j ≤ xfun j := by
        rcases hsel j with ⟨h1, -, h3⟩ | ⟨h1, -, -⟩
        · rw [h1]; exact Val.le_of_lt' h3
        · rw [h1]; exact Val.le_refl' (hnn j)
      rw [hbf]
      exact Val.le_trans' h1 (Val.le_trans' h2 hj)

theorem selectionSync_inv2 {E E' : Vec K n → Prop} {gfit : Val K}
    (h : selectionSync it cand xbest x xfun maxiter xtol ftol obj = .ok r)
    (hf : ∀ y : Pop K p n, ∀ i, obj.pop y i = f (y i)) (hE' : ∀ y, E' y → E y ∨ ∃ i, y = cand i)
    (hI : Inv2 f E xfun gfit) : Inv2 f E' r.xfun r.xbestfun := by
  obtain ⟨-, hsel, ⟨i, hi, hb, hbf⟩, -⟩ := selectionSync_ok h hf
  have hnn : ∀ k, xfun k ≠ .nan := fun k => Val.ne_nan_right (hI.lb k)
  have hM : InvM xfun gfit := fun _ => ⟨hnn, hI.att⟩
  obtain ⟨hM', hle⟩ := selectionSync_mono h hf hM
  have hle' : r.xbestfun ≤ gfit := hle.resolve_left hI.ne_nan
  have hn' : r.xbestfun ≠ .nan := Val.ne_nan_left hle'
  have hlb : ∀ k, r.xbestfun ≤ r.xfun k := by
    intro k; rw [hbf] at hn' ⊢; exact argmin_le hi hn' k
  refine ⟨hlb, (hM' hn').2, ?_⟩
  intro y hy hyn
  rcases hE' y hy with hy | ⟨k, rfl⟩
  · exact Val.le_trans' hle' (hI.all y hy hyn)
  · rcases hsel k with ⟨h1, -, -⟩ | ⟨h1, -, h3⟩
    · rw [← h1]; exact hlb k
    · have := (Val.not_lt_iff (hnn k) hyn).1 h3
      rw [← h1] at this
      exact Val.le_trans' (hlb k) this

end sync

section async
variable {candi : Vec K n} {xbest : Vec K n} {gfit : Val K} {x : Pop K p n} {xfun : Fin p → Val K}
  {xtol : K} {ftol : Val K} {obj : Obj K n} {i : Fin p} {f : Vec K n → Val K}

/-- Everything `selection_async` does. -/
theorem selectionAsync_cases (hf : ∀ y, obj.one y = f y) :
    let r := selectionAsync candi xbest gfit x xfun xtol ftol obj i
    r.candfun = f candi ∧
    ((f candi ≤ xfun i ∧ r.x = Function.update x i candi ∧ r.xfun = Function.update xfun i (f candi) ∧
        ((f candi ≤ gfit ∧ r.xbest = candi ∧ r.xbestfun = f candi ∧
            r.status = (if distLe xbest candi xtol = true ∧ f candi ≤ ftol then some 0
              else if f candi ≤ ftol then some 1 else none)) ∨
          (¬ f candi ≤ gfit ∧ r.xbest = xbest ∧ r.xbestfun = gfit ∧ r.status = none))) ∨
      (¬ f candi ≤ xfun i ∧ r.x = x ∧ r.xfun = xfun ∧ r.xbest = xbest ∧ r.xbestfun = gfit ∧ r.status = none)) := by
  dsimp only
  unfold selectionAsync
  dsimp only
  rw [hf]
  by_cases h1 : f candi ≤ xfun i
  · by_cases h2 : f candi ≤ gfit
    · simp [h1, h2]
    · simp [h1, h2]
  · simp [h1]

theorem selectionAsync_inv1 {T : Prop} {reset : Val K} {E E' : Vec K n → Prop}
    (hf : ∀ y, obj.one y = f y) (hE : ∀ y, E y → E' y) (hE' : E' candi)
    (hI : Inv1 T reset f E x xfun xbest gfit) :
    let r := selectionAsync candi xbest gfit x xfun xtol ftol obj i
    Inv1 T reset f E' r.x r.xfun r.xbest r.xbestfun := by
  intro r
  obtain ⟨-, hcase⟩ := selectionAsync_cases (candi := candi) (xbest := xbest) (gfit := gfit) (x := x) (xfun := xfun)
    (xtol := xtol) (ftol := ftol) (i := i) hf
  rcases hcase with ⟨hc, hx, hxf, hb⟩ | ⟨hc, hx, hxf, hb, hbf, -⟩
  · refine ⟨fun j => ?_, fun t => ?_, ?_⟩
    · rw [hx, hxf]
      by_cases hj : j = i
      · subst hj; left; simp [hE']
      · rw [Function.update_of_ne hj, Function.update_of_ne hj]
        exact (hI.fits j).imp (fun h => ⟨h.1, hE _ h.2⟩) id
    · obtain ⟨j, hj⟩ := hI.low t
      refine ⟨j, ?_⟩
      rw [hxf]
      by_cases hji : j = i
      · subst hji; simp only [Function.update_self]; exact Val.lt_of_le_of_lt' hc hj
      · rw [Function.update_of_ne hji]; exact hj
    · rcases hb with ⟨-, hb, hbf, -⟩ | ⟨-, hb, hbf, -⟩
      · rw [hb, hbf]; exact ⟨rfl, hE'⟩
      · rw [hb, hbf]; exact ⟨hI.best.1, hE _ hI.best.2⟩
  · rw [hx, hxf, hb, hbf]
    exact ⟨fun j => (hI.fits j).imp (fun h => ⟨h.1, hE _ h.2⟩) id, hI.low, hI.best.1, hE _ hI.best.2⟩

theorem selectionAsync_mono (hf : ∀ y, obj.one y = f y) (hI : InvM xfun gfit) :
    let r := selectionAsync candi xbest gfit x xfun xtol ftol obj i
    InvM r.xfun r.xbestfun ∧ sortLe r.xbestfun gfit := by
  intro r
  obtain ⟨-, hcase⟩ := selectionAsync_cases (candi := candi) (xbest := xbest) (gfit := gfit) (x := x) (xfun := xfun)
    (xtol := xtol) (ftol := ftol) (i := i) hf
  rcases hcase with ⟨hc, hx, hxf, hb⟩ | ⟨hc, hx, hxf, hb, hbf, -⟩
  · rcases hb with ⟨hle, hb, hbf, -⟩ | ⟨hle, hb, hbf, -⟩
    · rw [hbf, hxf]
      refine ⟨fun hn => ⟨fun j => ?_, i, ?_⟩, Or.inr hle⟩
      · by_cases hji : j = i
        · subst hji; simpa using hn
        · rw [Function.update_of_ne hji]
          exact (hI (Val.ne_nan_right hle)).1 j
      · simpa using Val.le_refl' hn
    · rw [hbf, hxf]
      refine ⟨fun hn => ⟨fun j => ?_, ?_⟩, sortLe_refl _⟩
      · by_cases hji : j = i
        · subst hji; simpa using Val.ne_nan_left hc
        · rw [Function.update_of_ne hji]; exact (hI hn).1 j
      · obtain ⟨j, hj⟩ := (hI hn).2
        by_cases hji : j = i
        · subst hji; exact absurd (Val.le_trans' hc hj) hle
        · exact ⟨j, by rw [Function.update_of_ne hji]; exact hj⟩
  · rw [hbf, hxf]; exact ⟨hI, sortLe_refl _⟩

theorem selectionAsync_inv2 {E E' : Vec K n → Prop} (hf : ∀ y, obj.one y = f y)
    (hE' : ∀ y, E' y → E y ∨ y = candi) (hI : Inv2 f E xfun gfit) :
    let r := selectionAsync candi xbest gfit x xfun xtol ftol obj i
    Inv2 f E' r.xfun r.xbestfun := by
  intro r
  have hnn : ∀ k, xfun k ≠ .nan := fun k => Val.ne_nan_right (hI.lb k)
  have hM : InvM xfun gfit := fun _ => ⟨hnn, hI.att⟩
  obtain ⟨hM', hle⟩ := selectionAsync_mono (candi := candi) (xbest := xbest) (x := x) (xtol := xtol) (ftol := ftol)
    (i := i) hf hM
  have hle' := hle.resolve_left hI.ne_nan
  have hatt := (hM' (Val.ne_nan_left hle')).2
  obtain ⟨-, hcase⟩ := selectionAsync_cases (candi := candi) (xbest := xbest) (gfit := gfit) (x := x) (xfun := xfun)
    (xtol := xtol) (ftol := ftol) (i := i) hf
  have hcand : f candi ≠ .nan → r.xbestfun ≤ f candi := by
    intro hn
    rcases hcase with ⟨hc, hx, hxf, hb⟩ | ⟨hc, hx, hxf, hb, hbf, -⟩
    · rcases hb with ⟨-, hb, hbf, -⟩ | ⟨hlt, hb, hbf, -⟩
      · rw [hbf]; exact Val.le_refl' hn
      · rw [hbf]; exact (Val.le_total' hn hI.ne_nan).resolve_left hlt
    · rw [hbf]
      exact Val.le_trans' (hI.lb i) ((Val.le_total' hn (hnn i)).resolve_left hc)
  refine ⟨?_, hatt, ?_⟩
  · intro j
    rcases hcase with ⟨hc, hx, hxf, hb⟩ | ⟨hc, hx, hxf, hb, hbf, -⟩
    · rw [hxf]
      by_cases hji : j = i
      · subst hji; simp only [Function.update_self]; exact hcand (Val.ne_nan_left hc)
      · rw [Function.update_of_ne hji]; exact Val.le_trans' hle' (hI.lb j)
    · rw [hxf]; exact Val.le_trans' hle' (hI.lb j)
  · intro y hy hyn
    rcases hE' y hy with hy | rfl
    · exact Val.le_trans' hle' (hI.all y hy hyn)
    · exact hcand hyn

end async

section init
variable {x : Pop K p n} {fit : Fin p → Val K} {i : Fin p} {f : Vec K n → Val K} {E : Vec K n → Prop}

theorem init_invM (h : argmin fit = .ok i) : InvM fit (fit i) := by
  intro hn
  exact ⟨fun j => Val.ne_nan_right (argmin_le h hn j), i, Val.le_refl' hn⟩

theorem init_inv2 (h : argmin fit = .ok i) (hfit : ∀ i, fit i = f (x i)) (hn : ∀ i, fit i ≠ .nan)
    (hE : ∀ y, E y → ∃ i, y = x i) : Inv2 f E fit (fit i) := by
  refine ⟨fun j => argmin_le h (hn i) j, ⟨i, Val.le_refl' (hn i)⟩, ?_⟩
  intro y hy _
  obtain ⟨j, rfl⟩ := hE y hy
  rw [← hfit j]
  exact argmin_le h (hn i) j

end init
end Stochopy
