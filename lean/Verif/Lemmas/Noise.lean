import Verif.Model.Noise
import Verif.Spec.Noise
import Verif.Lemmas.IntFun
import Verif.Lemmas.DE
import Verif.Lemmas.CPSO
import Verif.Lemmas.NA
import Verif.Lemmas.EvoRun

/-! Invariants of runs whose objective answers differently from request to request. -/

set_option linter.unusedSectionVars false

namespace Stochopy
open Spec

section answered
variable {K : Type} [LinearOrder K] {n p : Nat} {ans : Nat → Vec K n → Val K} {ev : List (Vec K n)}

theorem Answered.append {x : Vec K n} {v : Val K} (ys : List (Vec K n)) (h : Answered ans ev x v) : Answered ans (ev ++ ys) x v := by
  obtain ⟨k, hk, hv⟩ := h
  refine ⟨k, ?_, hv⟩
  rw [List.getElem?_append_left (List.getElem?_eq_some_iff.1 hk).1]; exact hk

theorem answered_ofFn (X : Pop K p n) (i : Fin p) : Answered ans (ev ++ List.ofFn X) (X i) (ans (ev.length + i.val) (X i)) := by
  refine ⟨ev.length + i.val, ?_, rfl⟩
  rw [List.getElem?_append_right (by omega)]
  simp

theorem answered_single (x : Vec K n) : Answered ans (ev ++ [x]) x (ans ev.length x) := by
  refine ⟨ev.length, ?_, rfl⟩
  simp

theorem answered_cases_ofFn {X : Pop K p n} {x : Vec K n} {v : Val K} (h : Answered ans (ev ++ List.ofFn X) x v) :
    Answered ans ev x v ∨ ∃ i : Fin p, v = ans (ev.length + i.val) (X i) := by
  obtain ⟨k, hk, hv⟩ := h
  rcases Nat.lt_or_ge k ev.length with hlt | hge
  · rw [List.getElem?_append_left hlt] at hk
    exact Or.inl ⟨k, hk, hv⟩
  · rw [List.getElem?_append_right hge] at hk
    right
    obtain ⟨hlt, hx⟩ := List.getElem?_eq_some_iff.1 hk
    simp only [List.length_ofFn] at hlt
    refine ⟨⟨k - ev.length, hlt⟩, ?_⟩
    rw [List.getElem_ofFn] at hx
    rw [hv, ← hx]
    congr 1
    show k = ev.length + (k - ev.length)
    omega

theorem answered_cases_single {y x : Vec K n} {v : Val K} (h : Answered ans (ev ++ [y]) x v) :
    Answered ans ev x v ∨ v = ans ev.length y := by
  obtain ⟨k, hk, hv⟩ := h
  rcases Nat.lt_or_ge k ev.length with hlt | hge
  · rw [List.getElem?_append_left hlt] at hk
    exact Or.inl ⟨k, hk, hv⟩
  · have : k = ev.length := by
      have := (List.getElem?_eq_some_iff.1 hk).1
      simp at this; omega
    subst this
    simp at hk
    right; rw [hv, hk]

end answered

variable {K : Type} [AddZeroClass K] [One K] [Sub K] [Mul K] [Div K] [Neg K] [NatCast K] [IntCast K] [Pow K ℕ] [ArrayOps K] [LinearOrder K] {p n : Nat}

/-- Values belong to points: `A x v` says that the objective answered `v` for `x`. -/
structure Inv1A (T : Prop) (reset : Val K) (A : Vec K n → Val K → Prop) (x : Pop K p n) (fit : Fin p → Val K)
    (gbest : Vec K n) (gfit : Val K) : Prop where
  fits : ∀ i, A (x i) (fit i) ∨ (T ∧ fit i = reset)
  low : T → ∃ i, fit i < reset
  best : A gbest gfit

/-- The best value is a lower bound of all answers `B`. -/
structure Inv2A (B : Val K → Prop) (fit : Fin p → Val K) (gfit : Val K) : Prop where
  lb : ∀ i, gfit ≤ fit i
  att : ∃ i, fit i ≤ gfit
  all : ∀ v, B v → v ≠ .nan → gfit ≤ v

theorem Inv2A.ne_nan {B : Val K → Prop} {fit : Fin p → Val K} {gfit : Val K} (h : Inv2A B fit gfit) : gfit ≠ .nan := by
  obtain ⟨i, hi⟩ := h.att; exact Val.ne_nan_right hi

section sync
variable {it : Nat} {cand : Pop K p n} {xbest : Vec K n} {x : Pop K p n} {xfun : Fin p → Val K} {maxiter : Int}
  {xtol : K} {ftol : Val K} {obj : Obj K n} {r : SelSync K p n}

theorem selectionSync_raw (h : selectionSync it cand xbest x xfun maxiter xtol ftol obj = .ok r) :
    (∀ i, r.candfun i = obj.pop cand i) ∧
    (∀ i, (r.xfun i = obj.pop cand i ∧ r.x i = cand i ∧ obj.pop cand i < xfun i) ∨
          (r.xfun i = xfun i ∧ r.x i = x i ∧ ¬ obj.pop cand i < xfun i)) ∧
    ∃ i, argmin r.xfun = .ok i ∧ r.xbest = r.x i ∧ r.xbestfun = r.xfun i := by
  unfold selectionSync at h
  rw [bind_ok_iff] at h
  obtain ⟨i, hi, h⟩ := h
  simp only [Except.ok.injEq] at h
  subst h
  refine ⟨fun i => rfl, fun i => ?_, ⟨i, hi, rfl, rfl⟩⟩
  dsimp only
  by_cases hc : obj.pop cand i < xfun i
  · left; simp [hc]
  · right; simp [hc]

theorem selectionSync_inv1A {T : Prop} {reset : Val K} {A A' : Vec K n → Val K → Prop} {gfit : Val K}
    (h : selectionSync it cand xbest x xfun maxiter xtol ftol obj = .ok r) (hr : reset ≠ .nan)
    (hA : ∀ y v, A y v → A' y v) (hA' : ∀ i, A' (cand i) (obj.pop cand i)) (hI : Inv1A T reset A x xfun xbest gfit) :
    Inv1A T reset A' r.x r.xfun r.xbest r.xbestfun := by
  obtain ⟨-, hsel, i, hi, hb, hbf⟩ := selectionSync_raw h
  have hfit : ∀ i, A' (r.x i) (r.xfun i) ∨ (T ∧ r.xfun i = reset) := by
    intro i
    rcases hsel i with ⟨h1, h2, -⟩ | ⟨h1, h2, -⟩
    · left; rw [h1, h2]; exact hA' i
    · rw [h1, h2]; exact (hI.fits i).imp (hA _ _) id
  have hlow : T → ∃ i, r.xfun i < reset := by
    intro t
    obtain ⟨j, hj⟩ := hI.low t
    refine ⟨j, ?_⟩
    rcases hsel j with ⟨h1, -, h3⟩ | ⟨h1, -, -⟩
    · rw [h1]; exact Val.lt_of_lt_of_le' h3 (Val.le_of_lt' hj)
    · rw [h1]; exact hj
  refine ⟨hfit, hlow, ?_⟩
  rw [hb, hbf]
  rcases hfit i with h | ⟨t, h⟩
  · exact h
  · obtain ⟨j, hj⟩ := hlow t
    have := argmin_le hi (by rw [h]; exact hr) j
    rw [h] at this
    exact absurd hj (Val.not_lt_of_le' this)

theorem selectionSync_monoA {gfit : Val K} (h : selectionSync it cand xbest x xfun maxiter xtol ftol obj = .ok r)
    (hI : InvM xfun gfit) : InvM r.xfun r.xbestfun ∧ sortLe r.xbestfun gfit := by
  obtain ⟨-, hsel, i, hi, hb, hbf⟩ := selectionSync_raw h
  refine ⟨fun hn => ⟨fun j => ?_, ?_⟩, ?_⟩
  · rw [hbf] at hn
    exact Val.ne_nan_right (argmin_le hi hn j)
  · exact ⟨i, by rw [hbf] at hn ⊢; exact Val.le_refl' hn⟩
  · by_cases hg : gfit = .nan
    · exact Or.inl hg
    · right
      obtain ⟨hnn, j, hj⟩ := hI hg
      have hnn' : ∀ k, r.xfun k ≠ .nan := by
        intro k
        rcases hsel k with ⟨h1, -, h3⟩ | ⟨h1, -, -⟩
        · rw [h1]; exact Val.ne_nan_left_lt h3
        · rw [h1]; exact hnn k
      have h1 : r.xfun i ≤ r.xfun j := argmin_le hi (hnn' i) j
      have h2 : r.xfun j ≤ xfun j := by
        rcases hsel j with ⟨h1, -, h3⟩ | ⟨h1, -, -⟩
        · rw [h1]; exact Val.le_of_lt' h3
        · rw [h1]; exact Val.le_refl' (hnn j)
      rw [hbf]
      exact Val.le_trans' h1 (Val.le_trans' h2 hj)

theorem selectionSync_inv2A {B B' : Val K → Prop} {gfit : Val K}
    (h : selectionSync it cand xbest x xfun maxiter xtol ftol obj = .ok r)
    (hB : ∀ v, B' v → B v ∨ ∃ i, v = obj.pop cand i) (hI : Inv2A B xfun gfit) : Inv2A B' r.xfun r.xbestfun := by
  obtain ⟨-, hsel, i, hi, hb, hbf⟩ := selectionSync_raw h
  have hnn : ∀ k, xfun k ≠ .nan := fun k => Val.ne_nan_right (hI.lb k)
  have hM : InvM xfun gfit := fun _ => ⟨hnn, hI.att⟩
  obtain ⟨hM', hle⟩ := selectionSync_monoA h hM
  have hle' : r.xbestfun ≤ gfit := hle.resolve_left hI.ne_nan
  have hn' : r.xbestfun ≠ .nan := Val.ne_nan_left hle'
  have hlb : ∀ k, r.xbestfun ≤ r.xfun k := by
    intro k; rw [hbf] at hn' ⊢; exact argmin_le hi hn' k
  refine ⟨hlb, (hM' hn').2, ?_⟩
  intro v hv hvn
  rcases hB v hv with hv | ⟨k, rfl⟩
  · exact Val.le_trans' hle' (hI.all v hv hvn)
  · rcases hsel k with ⟨h1, -, -⟩ | ⟨h1, -, h3⟩
    · rw [← h1]; exact hlb k
    · have := (Val.not_lt_iff (hnn k) hvn).1 h3
      rw [← h1] at this
      exact Val.le_trans' (hlb k) this

end sync

section async
variable {candi : Vec K n} {xbest : Vec K n} {gfit : Val K} {x : Pop K p n} {xfun : Fin p → Val K}
  {xtol : K} {ftol : Val K} {obj : Obj K n} {i : Fin p}

theorem selectionAsync_inv1A {T : Prop} {reset : Val K} {A A' : Vec K n → Val K → Prop}
    (hA : ∀ y v, A y v → A' y v) (hA' : A' candi (obj.one candi)) (hI : Inv1A T reset A x xfun xbest gfit) :
    let r := selectionAsync candi xbest gfit x xfun xtol ftol obj i
    Inv1A T reset A' r.x r.xfun r.xbest r.xbestfun := by
  intro r
  obtain ⟨-, hcase⟩ := selectionAsync_cases (candi := candi) (xbest := xbest) (gfit := gfit) (x := x) (xfun := xfun)
    (xtol := xtol) (ftol := ftol) (i := i) (obj := obj) (f := obj.one) (fun _ => rfl)
  rcases hcase with ⟨hc, hx, hxf, hb⟩ | ⟨hc, hx, hxf, hb, hbf, -⟩
  · refine ⟨fun j => ?_, fun t => ?_, ?_⟩
    · rw [hx, hxf]
      by_cases hj : j = i
      · subst hj; left; simpa using hA'
      · rw [Function.update_of_ne hj, Function.update_of_ne hj]
        exact (hI.fits j).imp (hA _ _) id
    · obtain ⟨j, hj⟩ := hI.low t
      refine ⟨j, ?_⟩
      rw [hxf]
      by_cases hji : j = i
      · subst hji; simp only [Function.update_self]; exact Val.lt_of_le_of_lt' hc hj
      · rw [Function.update_of_ne hji]; exact hj
    · rcases hb with ⟨-, hb, hbf, -⟩ | ⟨-, hb, hbf, -⟩
      · rw [hb, hbf]; exact hA'
      · rw [hb, hbf]; exact hA _ _ hI.best
  · rw [hx, hxf, hb, hbf]
    exact ⟨fun j => (hI.fits j).imp (hA _ _) id, hI.low, hA _ _ hI.best⟩

theorem selectionAsync_inv2A {B B' : Val K → Prop} (hB : ∀ v, B' v → B v ∨ v = obj.one candi) (hI : Inv2A B xfun gfit) :
    let r := selectionAsync candi xbest gfit x xfun xtol ftol obj i
    Inv2A B' r.xfun r.xbestfun := by
  intro r
  have hnn : ∀ k, xfun k ≠ .nan := fun k => Val.ne_nan_right (hI.lb k)
  have h2 : Inv2 obj.one (fun y => y = candi ∧ False) xfun gfit := ⟨hI.lb, hI.att, fun _ h => h.2.elim⟩
  have key := selectionAsync_inv2 (candi := candi) (xbest := xbest) (x := x) (xtol := xtol) (ftol := ftol) (i := i)
    (obj := obj) (f := obj.one) (E' := fun y => y = candi) (fun _ => rfl) (fun y hy => Or.inr hy) h2
  have hM : InvM xfun gfit := fun _ => ⟨hnn, hI.att⟩
  obtain ⟨-, hle⟩ := selectionAsync_mono (candi := candi) (xbest := xbest) (x := x) (xtol := xtol) (ftol := ftol)
    (i := i) (obj := obj) (f := obj.one) (fun _ => rfl) hM
  refine ⟨key.lb, key.att, ?_⟩
  intro v hv hn
  rcases hB v hv with hv | rfl
  · exact Val.le_trans' (hle.resolve_left hI.ne_nan) (hI.all v hv hn)
  · exact key.all _ rfl hn

end async

theorem init_inv2A {fit : Fin p → Val K} {i : Fin p} {B : Val K → Prop} (h : argmin fit = .ok i) (hn : ∀ i, fit i ≠ .nan)
    (hB : ∀ v, B v → ∃ i, v = fit i) : Inv2A B fit (fit i) := by
  refine ⟨fun j => argmin_le h (hn i) j, ⟨i, Val.le_refl' (hn i)⟩, ?_⟩
  intro v hv _
  obtain ⟨j, rfl⟩ := hB v hv
  exact argmin_le h (hn i) j

/-! ## What a callback has seen -/

section seen
variable {S σ : Type} {A : Alg S K p n} {c : Cfg} {s0 : S} {maxiter : Int} {ev : S → List (Vec K n)}

theorem hist_evals (hl : A.Laws maxiter ev) (h0 : (ev s0).length = p) {s l st} (h : A.Hist s0 (s :: l) st) :
    ∀ (k : Nat) t, (s :: l).reverse[k]? = some t → ev t = (ev s).take ((k + 1) * p) := by
  have key : ∀ {m : List S} {st}, A.Hist s0 m st → ∀ s l, m = s :: l → ∀ (k : Nat) t, m.reverse[k]? = some t →
      ev t = (ev s).take ((k + 1) * p) := by
    intro m st h
    induction h with
    | init =>
      intro s l he k t hk
      simp at he
      obtain ⟨rfl, rfl⟩ := he
      have : k = 0 := by
        have := (List.getElem?_eq_some_iff.1 hk).1
        simp at this; omega
      subst this
      simp at hk
      subst hk
      rw [List.take_of_length_le (by omega)]
    | @next s s' l st hH hn ih =>
      intro a m he k t hk
      simp only [List.cons.injEq] at he
      obtain ⟨rfl, rfl⟩ := he
      have hlen' := hl.ev_length h0 (Alg.Hist.next hH hn)
      have hlen := hl.ev_length h0 hH
      rw [List.reverse_cons] at hk
      rcases Nat.lt_or_ge k (s :: l).reverse.length with hlt | hge
      · rw [List.getElem?_append_left hlt] at hk
        obtain ⟨u, hu, _, _, he, _⟩ := hl.next_step hn
        obtain ⟨ys, hy, hs'⟩ := hl.ev_step hu
        rw [ih s l rfl k t hk, hs', he]
        simp at hlt
        rw [List.take_append_of_le_length]
        rw [hlen]; exact Nat.mul_le_mul_right _ (by omega)
      · have hk' : k = (s :: l).reverse.length := by
          have := (List.getElem?_eq_some_iff.1 hk).1
          simp at this hge ⊢; omega
        subst hk'
        rw [List.getElem?_append_right (le_refl _)] at hk
        simp at hk
        subst hk
        rw [List.take_of_length_le]
        rw [hlen']; simp
  exact key h s l rfl

/-- Reported values in terms of an invariant `Q` on the requests, the best point and its value. -/
theorem run_reports (hl : A.Laws maxiter ev) (h0 : (ev s0).length = p) {fuel : Nat} {r : Result K n} {L : Loop S K p n}
    (h : A.run c fuel s0 = .ok (r, L)) {Q : List (Vec K n) → Vec K n → Val K → Prop}
    (hQ : ∀ {l st}, A.Hist s0 l st → ∀ s ∈ l, Q (ev s) (A.best s) (A.bestFun s)) :
    Q (ev L.s) r.x r.fval ∧ ∀ b ∈ L.cbs, Q ((ev L.s).take b.nfev) b.x b.fval := by
  obtain ⟨l, st, msg, hH, hlen, hlog, hm, rfl⟩ := run_hist h
  refine ⟨hQ hH L.s (by simp), ?_⟩
  intro b hb
  obtain ⟨s, hs, k, rfl, hk⟩ := hlog.mem_cbs hb
  have := hQ hH s hs
  rw [hist_evals hl h0 hH k s hk] at this
  exact this

end seen

theorem objFrom_const {obj : Obj K n} {fn : Vec K n → Val K} (h : obj.Faithful fn) (k : Nat) : objFrom (fun _ => fn) k = obj := by
  cases obj with
  | mk pop one =>
    unfold objFrom
    congr
    · funext q X i; exact (h.pop X i).symm
    · funext x; exact (h.one x).symm

/-! ## The initial population -/

theorem answered_first {ans : Nat → Vec K n → Val K} (X : Pop K p n) (i : Fin p) :
    Answered ans (List.ofFn X) (X i) ((objFrom ans 0).pop X i) :=
  ⟨i.val, by simp, by simp [objFrom]⟩

theorem first_get {evals : List (Vec K n)} {X : Pop K p n} (h : evals.take p = List.ofFn X) (i : Fin p) :
    evals[i.val]? = some (X i) := by
  have := congrArg (fun l : List _ => l[i.val]?) h
  simp only [List.getElem?_take_of_lt i.isLt] at this
  rw [this]; simp

theorem first_inv2A {ans : Nat → Vec K n → Val K} {X : Pop K p n} {i : Fin p} (hi : argmin ((objFrom ans 0).pop X) = .ok i)
    {evals : List (Vec K n)} (h : evals.take p = List.ofFn X) (hn : ∀ k x, k < p → evals[k]? = some x → ans k x ≠ .nan) :
    Inv2A (fun v => ∃ x, Answered ans (List.ofFn X) x v) ((objFrom ans 0).pop X) ((objFrom ans 0).pop X i) := by
  refine init_inv2A hi (fun j => ?_) ?_
  · have := hn j.val _ j.isLt (first_get h j)
    simpa [objFrom] using this
  · rintro v ⟨x, k, hk, rfl⟩
    have hlt : k < p := by have := (List.getElem?_eq_some_iff.1 hk).1; simpa using this
    rw [List.getElem?_ofFn, dif_pos hlt, Option.some.injEq] at hk
    exact ⟨⟨k, hlt⟩, by rw [← hk]; simp [objFrom]⟩

theorem first_low {ans : Nat → Vec K n → Val K} {X : Pop K p n} {v : Val K} {evals : List (Vec K n)}
    (h : evals.take p = List.ofFn X) (hl : ∃ k x, k < p ∧ evals[k]? = some x ∧ ans k x < v) :
    ∃ j, (objFrom ans 0).pop X j < v := by
  obtain ⟨k, x, hk, hx, hlt⟩ := hl
  have := first_get h ⟨k, hk⟩
  rw [hx, Option.some.injEq] at this
  exact ⟨⟨k, hk⟩, by rw [this] at hlt; simpa [objFrom] using hlt⟩

/-! ## Differential evolution -/

namespace DE
variable {σ : Type} {P : Par σ K p n} {ans : Nat → Vec K n → Val K}

theorem algAns_step (sync : Bool) : (algAns ans P sync).step = if sync then stepSyncAns ans P else stepAsyncAns ans P := rfl

theorem stepAsyncAns_ok {it : Nat} {s s' : State σ K p n} {st : Option Int} (h : stepAsyncAns ans P it s = .ok (s', st)) :
    ∃ st0, (List.finRange p).foldlM (rowAsyncAns ans P (drawMat P.R.rand p n s.rng).1)
        ({ s with rng := (drawMat P.R.rand p n s.rng).2 }, none) = .ok (s', st0) ∧
      st = (if st0 = none ∧ P.maxiter ≤ (it : Int) then some (-1) else st0) := by
  unfold stepAsyncAns at h
  rw [bind_ok_iff] at h
  obtain ⟨⟨s1, st0⟩, hr, h⟩ := h
  simp only [Except.ok.injEq, Prod.mk.injEq] at h
  obtain ⟨rfl, rfl⟩ := h
  refine ⟨st0, hr, ?_⟩
  simp

theorem asyncAns_status {it : Nat} {s s' : State σ K p n} {st : Option Int} (h : stepAsyncAns ans P it s = .ok (s', st)) :
    (st = none → (it : Int) < P.maxiter) ∧ (st = some (-1) → P.maxiter ≤ (it : Int)) ∧
    (∀ k, st = some k → k = 0 ∨ k = 1 ∨ k = -1) := by
  obtain ⟨st0, hf, rfl⟩ := stepAsyncAns_ok h
  have hk1 := foldlM_inv (fun acc : State σ K p n × Option Int => acc.2 = none ∨ acc.2 = some 0 ∨ acc.2 = some 1)
    (f := rowAsyncAns ans P (drawMat P.R.rand p n s.rng).1) (by
      intro b i b' _ hb'
      obtain ⟨U, r, _, rfl, rfl⟩ := rowAsync_ok hb'
      obtain ⟨-, hc⟩ := selectionAsync_cases (candi := U.1) (xbest := b.1.gbest) (gfit := b.1.gfit) (x := b.1.X)
        (xfun := b.1.pbestfit) (xtol := P.xtol) (ftol := P.ftol) (obj := objFrom ans b.1.evals.length) (i := i)
        (f := (objFrom ans b.1.evals.length).one) (fun _ => rfl)
      simp only [Par.from]
      rcases hc with ⟨_, _, _, ⟨_, _, hb, hst⟩ | ⟨_, _, _, hst⟩⟩ | ⟨_, _, _, _, _, hst⟩
      · rw [hst]; split_ifs <;> simp
      · simp [hst]
      · simp [hst]) (List.finRange p) (b := ({ s with rng := (drawMat P.R.rand p n s.rng).2 }, none))
      (by simp) hf
  dsimp only at hk1
  refine ⟨?_, ?_, ?_⟩
  · intro h1
    split_ifs at h1 with h2
    rw [h1] at h2; simp at h2; exact h2
  · intro h1
    split_ifs at h1 with h2
    · exact h2.2
    · rw [h1] at hk1; simp at hk1
  · intro k h1
    split_ifs at h1 with h2
    · simp at h1; omega
    · rcases hk1 with h | h | h <;> rw [h] at h1 <;> simp at h1 <;> omega

theorem lawsAns (sync : Bool) (hs : ∀ d F X g, P.strat d F X g ≠ .error .outOfFuel) :
    (algAns ans P sync).Laws P.maxiter State.evals where
  best_post _ _ := rfl
  fun_post _ _ := rfl
  ev_post _ _ := rfl
  ev_step := by
    intro it s s' st h
    rw [algAns_step] at h
    cases sync with
    | true => exact (laws (P := P.from ans s.evals.length) true hs).ev_step h
    | false =>
      obtain ⟨st0, hf, _⟩ := stepAsyncAns_ok h
      have := foldlM_inv_idx (List.finRange p)
        (fun k (acc : State σ K p n × Option Int) => ∃ ys, ys.length = k ∧ acc.1.evals = s.evals ++ ys) (by
          rintro k hk b b' ⟨ys, hy, he⟩ hb'
          obtain ⟨U, r, _, _, rfl⟩ := rowAsync_ok hb'
          exact ⟨ys ++ [U.1], by simp [hy], by simp [he]⟩) ⟨[], rfl, by simp⟩ hf
      simpa using this
  cont := by
    intro it s s' h
    rw [algAns_step] at h
    cases sync with
    | true => exact (laws (P := P.from ans s.evals.length) true hs).cont h
    | false => exact (asyncAns_status h).1 rfl
  budget := by
    intro it s s' h
    rw [algAns_step] at h
    cases sync with
    | true => exact (laws (P := P.from ans s.evals.length) true hs).budget h
    | false => exact (asyncAns_status h).2.1 rfl
  codes := by
    intro it s s' k h
    rw [algAns_step] at h
    cases sync with
    | true => exact (laws (P := P.from ans s.evals.length) true hs).codes h
    | false => exact (asyncAns_status h).2.2 k rfl
  noFuel := by
    intro it s h
    rw [algAns_step] at h
    cases sync with
    | true => exact (laws (P := P.from ans s.evals.length) true hs).noFuel it s h
    | false =>
      simp only [Bool.false_eq_true, if_false] at h
      unfold stepAsyncAns at h
      rw [bind_error_iff] at h
      rcases h with h | ⟨_, _, h⟩
      · refine foldlM_ne_error ?_ _ _ h
        intro b i hb
        unfold rowAsyncAns rowAsync at hb
        rw [bind_error_iff] at hb
        rcases hb with hb | ⟨_, _, hb⟩
        · exact candAsync_ne_outOfFuel (P := P.from ans b.1.evals.length) hs _ _ _ _ _ hb
        · simp at hb
      · simp at h

/-- Values belong to points. -/
def I1A (ans : Nat → Vec K n → Val K) (s : State σ K p n) : Prop :=
  Inv1A False (.fin 0) (Answered ans s.evals) s.X s.pbestfit s.gbest s.gfit

/-- Lower bound of all answers. -/
def I2A (ans : Nat → Vec K n → Val K) (s : State σ K p n) : Prop :=
  Inv2A (fun v => ∃ x, Answered ans s.evals x v) s.pbestfit s.gfit

theorem I1A_step {sync : Bool} {it : Nat} {s s' : State σ K p n} {st : Option Int} (hI : I1A ans s)
    (h : (algAns ans P sync).step it s = .ok (s', st)) : I1A ans s' := by
  rw [algAns_step] at h
  cases sync with
  | true =>
    obtain ⟨U, r, _, hr, hst, rfl⟩ := stepSync_ok h
    exact selectionSync_inv1A hr (by simp) (fun _ _ hy => Answered.append _ hy) (fun i => answered_ofFn _ i) hI
  | false =>
    obtain ⟨st0, hfold, _⟩ := stepAsyncAns_ok h
    refine foldlM_inv (fun acc : State σ K p n × Option Int => I1A ans acc.1) ?_ _ ?_ hfold
    · intro b i b' hb hb'
      obtain ⟨U, r, _, rfl, rfl⟩ := rowAsync_ok hb'
      exact selectionAsync_inv1A (fun _ _ hy => Answered.append _ hy) (answered_single _) hb
    · exact hI

theorem I2A_step {sync : Bool} {it : Nat} {s s' : State σ K p n} {st : Option Int} (hI : I2A ans s)
    (h : (algAns ans P sync).step it s = .ok (s', st)) : I2A ans s' := by
  rw [algAns_step] at h
  cases sync with
  | true =>
    obtain ⟨U, r, _, hr, hst, rfl⟩ := stepSync_ok h
    refine selectionSync_inv2A hr (fun v hv => ?_) hI
    obtain ⟨x, hx⟩ := hv
    exact (answered_cases_ofFn hx).imp (fun h => ⟨x, h⟩) id
  | false =>
    obtain ⟨st0, hfold, _⟩ := stepAsyncAns_ok h
    refine foldlM_inv (fun acc : State σ K p n × Option Int => I2A ans acc.1) ?_ _ ?_ hfold
    · intro b i b' hb hb'
      obtain ⟨U, r, _, rfl, rfl⟩ := rowAsync_ok hb'
      refine selectionAsync_inv2A (fun v hv => ?_) hb
      obtain ⟨x, hx⟩ := hv
      exact (answered_cases_single hx).imp (fun h => ⟨x, h⟩) id
    · exact hI

theorem monoAns {sync : Bool} : (algAns ans P sync).Mono IM where
  post _ _ h := h
  step := by
    intro it s s' st hI h
    rw [algAns_step] at h
    cases sync with
    | true =>
      obtain ⟨U, r, _, hr, hst, rfl⟩ := stepSync_ok h
      exact selectionSync_monoA hr hI
    | false =>
      obtain ⟨st0, hfold, _⟩ := stepAsyncAns_ok h
      refine foldlM_inv (fun acc : State σ K p n × Option Int => IM acc.1 ∧ sortLe acc.1.gfit s.gfit) ?_ _ ?_ hfold
      · rintro b i b' ⟨hb, hle⟩ hb'
        obtain ⟨U, r, _, rfl, rfl⟩ := rowAsync_ok hb'
        obtain ⟨h1, h2⟩ := selectionAsync_mono (candi := U.1) (xbest := b.1.gbest) (x := b.1.X) (xtol := P.xtol)
          (ftol := P.ftol) (i := i) (obj := objFrom ans b.1.evals.length) (f := (objFrom ans b.1.evals.length).one)
          (fun _ => rfl) hb
        exact ⟨h1, sortLe_trans h2 hle⟩
      · exact ⟨hI, sortLe_refl _⟩

/-- A completed call. -/
theorem minimizeAns_ok [IntParts K] {env : Env} (he : env.Ok) {R : Rng σ K} {fuel : Nat} {a : Args K}
    {ans : Nat → Vec K a.ndim → Val K} {g : σ} {o : Output σ K a.p a.ndim} (h : minimizeAns env R fuel a ans g = .ok o) :
    ∃ (P : Par σ K a.p a.ndim) (s0 : State σ K a.p a.ndim) (r : Result K a.ndim) (L : Loop (State σ K a.p a.ndim) K a.p a.ndim),
      validate a = .ok P.strat ∧ (∀ d F X g, P.strat d F X g ≠ .error .outOfFuel) ∧
      init (P.from ans 0) a.x0Pop (a.seeded R g) = .ok s0 ∧
      (algAns ans P a.sync).run a.cfg fuel s0 = .ok (r, L) ∧
      o = mkOut r L State.evals State.caller State.rng := by
  unfold minimizeAns at h
  rw [bind_ok_iff] at h
  obtain ⟨strat, hv, h⟩ := h
  cases hfn : a.fn with
  | none => rw [hfn] at h; simp at h
  | some fn =>
    rw [hfn] at h
    dsimp only at h
    obtain ⟨obj, hobj, h⟩ := optimizer_ok he h
    rw [bind_ok_iff] at h
    obtain ⟨_, _, h⟩ := h
    rw [bind_ok_iff] at h
    obtain ⟨cons, hcons, h⟩ := h
    unfold deAns at h
    rw [bind_ok_iff] at h
    obtain ⟨s0, hs0, h⟩ := h
    rw [bind_ok_iff] at h
    obtain ⟨⟨r, L⟩, hrun, h⟩ := h
    simp only [Except.ok.injEq] at h
    have hname := (validate_ok hv).2.2.2.2.2.2.2.2.1
    exact ⟨_, s0, r, L, hv, strategyMap_ne_outOfFuel hname, hs0, hrun, h.symm⟩

theorem Par.from_const {fn : Vec K n → Val K} (h : P.obj.Faithful fn) (k : Nat) : P.from (fun _ => fn) k = P := by
  unfold Par.from
  rw [objFrom_const h]

theorem deAns_const {fn : Vec K n → Val K} (h : P.obj.Faithful fn) (sync : Bool) (c : Cfg) (fuel : Nat)
    (x0 : Option (Pop K p n)) (g : σ) : deAns (fun _ => fn) P sync c fuel x0 g = de P sync c fuel x0 g := by
  have hs : stepSyncAns (fun _ => fn) P = stepSync P := by
    funext it s; unfold stepSyncAns; rw [Par.from_const h]
  have hr : rowAsyncAns (fun _ => fn) P = rowAsync P := by
    funext r1 acc i; unfold rowAsyncAns; rw [Par.from_const h]
  have ha : stepAsyncAns (fun _ => fn) P = stepAsync P := by
    funext it s; unfold stepAsyncAns stepAsync; rw [hr]
  unfold deAns de algAns
  rw [Par.from_const h, hs, ha]
  rfl

end DE

/-! ## Particle swarm -/

namespace CPSO
variable {σ : Type} {P : Par σ K n} {ans : Nat → Vec K n → Val K}

theorem stepAsyncAns_ok {it : Nat} {s s' : State σ K p n} {st : Option Int} (h : stepAsyncAns ans P it s = .ok (s', st)) :
    ∃ r, r = (List.finRange p).foldl (rowAsyncAns ans P (drawMat P.R.rand p n s.rng).1
          (drawMat P.R.rand p n (drawMat P.R.rand p n s.rng).2).1)
          ({ s with rng := (drawMat P.R.rand p n (drawMat P.R.rand p n s.rng).2).2 }, none) ∧
      s' = r.1 ∧ st = (if r.2 = none ∧ P.maxiter ≤ (it : Int) then some (-1) else r.2) := by
  unfold stepAsyncAns at h
  simp only [Except.ok.injEq, Prod.mk.injEq] at h
  obtain ⟨h1, h2⟩ := h
  refine ⟨_, rfl, h1.symm, ?_⟩
  rw [← h2]
  simp

theorem asyncAns_status {it : Nat} {s s' : State σ K p n} {st : Option Int} (h : stepAsyncAns ans P it s = .ok (s', st)) :
    (st = none → (it : Int) < P.maxiter) ∧ (st = some (-1) → P.maxiter ≤ (it : Int)) ∧
    (∀ k, st = some k → k = 0 ∨ k = 1 ∨ k = -1) := by
  obtain ⟨r, hr, rfl, rfl⟩ := stepAsyncAns_ok h
  have hk1 : r.2 = none ∨ r.2 = some 0 ∨ r.2 = some 1 := by
    rw [hr]
    refine foldl_inv (fun acc : State σ K p n × Option Int => acc.2 = none ∨ acc.2 = some 0 ∨ acc.2 = some 1) ?_ _ (by simp)
    intro b i _
    obtain ⟨-, hc⟩ := selectionAsync_cases
      (candi := (mutation (P.from ans b.1.evals.length) (b.1.X i) (b.1.V i) (b.1.pbest i) b.1.gbest ((drawMat P.R.rand p n s.rng).1 i)
        ((drawMat P.R.rand p n (drawMat P.R.rand p n s.rng).2).1 i)).1) (xbest := b.1.gbest) (gfit := b.1.gfit)
        (x := b.1.pbest) (xfun := b.1.pbestfit) (xtol := P.xtol) (ftol := P.ftol) (obj := objFrom ans b.1.evals.length) (i := i)
        (f := (objFrom ans b.1.evals.length).one) (fun _ => rfl)
    show (selectionAsync _ _ _ _ _ _ _ _ _).status = none ∨ _ ∨ _
    rcases hc with ⟨_, _, _, ⟨_, _, hb, hst⟩ | ⟨_, _, _, hst⟩⟩ | ⟨_, _, _, _, _, hst⟩
    · refine (show ∀ t : Option Int, t = (if distLe b.1.gbest _ P.xtol = true ∧ _ ≤ P.ftol then some 0
          else if _ ≤ P.ftol then some 1 else none) → t = none ∨ t = some 0 ∨ t = some 1 from ?_) _ hst
      intro t ht; rw [ht]; split_ifs <;> simp
    · exact Or.inl hst
    · exact Or.inl hst
  refine ⟨?_, ?_, ?_⟩
  · intro h1
    split_ifs at h1 with h2
    rw [h1] at h2; simp at h2; exact h2
  · intro h1
    split_ifs at h1 with h2
    · exact h2.2
    · rw [h1] at hk1; simp at hk1
  · intro k h1
    split_ifs at h1 with h2
    · simp at h1; omega
    · rcases hk1 with h | h | h <;> rw [h] at h1 <;> simp at h1 <;> omega

variable [IntParts K] [NumFns K]

theorem algAns_step (sync : Bool) :
    (algAns (p := p) ans P sync).step = if sync then stepSyncAns ans P else stepAsyncAns ans P := rfl

theorem lawsAns (sync : Bool) : (algAns (p := p) ans P sync).Laws P.maxiter State.evals where
  best_post it s := (post_fields it s).1
  fun_post it s := (post_fields it s).2.1
  ev_post it s := (post_fields it s).2.2.1
  ev_step := by
    intro it s s' st h
    rw [algAns_step] at h
    cases sync with
    | true => exact (laws (p := p) (P := P.from ans s.evals.length) true).ev_step h
    | false =>
      obtain ⟨r, hr, rfl, _⟩ := stepAsyncAns_ok h
      have := foldl_inv_idx (List.finRange p)
        (fun k (acc : State σ K p n × Option Int) => ∃ ys, ys.length = k ∧ acc.1.evals = s.evals ++ ys)
        (f := rowAsyncAns ans P (drawMat P.R.rand p n s.rng).1 (drawMat P.R.rand p n (drawMat P.R.rand p n s.rng).2).1) (by
          rintro k hk b ⟨ys, hy, he⟩
          obtain ⟨y, hy'⟩ := rowAsync_evals (P := P.from ans b.1.evals.length) (r1 := (drawMat P.R.rand p n s.rng).1)
            (r2 := (drawMat P.R.rand p n (drawMat P.R.rand p n s.rng).2).1) b (List.finRange p)[k]
          exact ⟨ys ++ [y], by simp [hy], by unfold rowAsyncAns; rw [hy', he, List.append_assoc]⟩)
        (b := ({ s with rng := (drawMat P.R.rand p n (drawMat P.R.rand p n s.rng).2).2 }, none)) ⟨[], rfl, by simp⟩
      rw [← hr] at this
      simpa using this
  cont := by
    intro it s s' h
    rw [algAns_step] at h
    cases sync with
    | true => exact (laws (p := p) (P := P.from ans s.evals.length) true).cont h
    | false => exact (asyncAns_status h).1 rfl
  budget := by
    intro it s s' h
    rw [algAns_step] at h
    cases sync with
    | true => exact (laws (p := p) (P := P.from ans s.evals.length) true).budget h
    | false => exact (asyncAns_status h).2.1 rfl
  codes := by
    intro it s s' k h
    rw [algAns_step] at h
    cases sync with
    | true => exact (laws (p := p) (P := P.from ans s.evals.length) true).codes h
    | false => exact (asyncAns_status h).2.2 k rfl
  noFuel := by
    intro it s h
    rw [algAns_step] at h
    cases sync with
    | true => exact (laws (p := p) (P := P.from ans s.evals.length) true).noFuel it s h
    | false =>
      simp only [Bool.false_eq_true, if_false] at h
      simp [stepAsyncAns] at h

/-- Values belong to points. -/
def I1A (P : Par σ K n) (ans : Nat → Vec K n → Val K) (s : State σ K p n) : Prop :=
  Inv1A (Restarts P) resetFit (Answered ans s.evals) s.pbest s.pbestfit s.gbest s.gfit

/-- Lower bound of all answers. -/
def I2A (ans : Nat → Vec K n → Val K) (s : State σ K p n) : Prop :=
  Inv2A (fun v => ∃ x, Answered ans s.evals x v) s.pbestfit s.gfit

theorem I1A_step {sync : Bool} {it : Nat} {s s' : State σ K p n} {st : Option Int} (hI : I1A P ans s)
    (h : (algAns ans P sync).step it s = .ok (s', st)) : I1A P ans s' := by
  rw [algAns_step] at h
  cases sync with
  | true =>
    obtain ⟨r, hr, hst, rfl⟩ := stepSync_ok h
    exact selectionSync_inv1A hr resetFit_ne_nan (fun _ _ hy => Answered.append _ hy) (fun i => answered_ofFn _ i) hI
  | false =>
    obtain ⟨r, hr, rfl, _⟩ := stepAsyncAns_ok h
    rw [hr]
    refine foldl_inv (fun acc : State σ K p n × Option Int => I1A P ans acc.1) ?_ _ ?_
    · intro b i hb
      exact selectionAsync_inv1A (fun _ _ hy => Answered.append _ hy) (answered_single _) hb
    · exact hI

theorem I2A_step {sync : Bool} {it : Nat} {s s' : State σ K p n} {st : Option Int} (hI : I2A ans s)
    (h : (algAns ans P sync).step it s = .ok (s', st)) : I2A ans s' := by
  rw [algAns_step] at h
  cases sync with
  | true =>
    obtain ⟨r, hr, hst, rfl⟩ := stepSync_ok h
    refine selectionSync_inv2A hr (fun v hv => ?_) hI
    obtain ⟨x, hx⟩ := hv
    exact (answered_cases_ofFn hx).imp (fun h => ⟨x, h⟩) id
  | false =>
    obtain ⟨r, hr, rfl, _⟩ := stepAsyncAns_ok h
    rw [hr]
    refine foldl_inv (fun acc : State σ K p n × Option Int => I2A ans acc.1) ?_ _ ?_
    · intro b i hb
      refine selectionAsync_inv2A (fun v hv => ?_) hb
      obtain ⟨x, hx⟩ := hv
      exact (answered_cases_single hx).imp (fun h => ⟨x, h⟩) id
    · exact hI

section restart
variable [FewRestarts K p]

theorem I1A_post (hsrt : IsArgsort P.argsort) (hp : 0 < p) (it : Nat) {s : State σ K p n} (hI : I1A P ans s) :
    I1A P ans (post P it s) := by
  obtain ⟨⟨q0, hq0, hq0f, _⟩, hall⟩ := post_particle (P := P) hsrt hp it s
  obtain ⟨hb, hg, he, _⟩ := post_fields (P := P) it s
  unfold I1A
  rw [hb, hg, he]
  refine ⟨fun q => ?_, fun t => ?_, hI.best⟩
  · rcases hall q with ⟨h1, h2, _⟩ | ⟨ht, h1, _⟩
    · rw [h1, h2]; exact hI.fits q
    · exact Or.inr ⟨ht, h1⟩
  · obtain ⟨j, hj⟩ := hI.low t
    refine ⟨q0, ?_⟩
    rw [hq0f]
    rcases hq0 j with h | h
    · rw [h] at hj; exact absurd hj Val.not_nan_lt
    · exact Val.lt_of_le_of_lt' h hj

theorem I2A_post (hsrt : IsArgsort P.argsort) (hp : 0 < p) (it : Nat) {s : State σ K p n} (h1 : I1A P ans s) (hI : I2A ans s) :
    I2A ans (post P it s) := by
  have hM : IM s := fun _ => ⟨fun q => Val.ne_nan_right (hI.lb q), hI.att⟩
  obtain ⟨_, hatt⟩ := IM_post (P := P) hsrt hp it hM (by
    rw [(post_fields (P := P) it s).2.1]; exact hI.ne_nan)
  obtain ⟨_, hall⟩ := post_particle (P := P) hsrt hp it s
  obtain ⟨hb, hg, he, _⟩ := post_fields (P := P) it s
  unfold I2A
  rw [hg] at hatt ⊢
  rw [he]
  refine ⟨fun q => ?_, hatt, hI.all⟩
  rcases hall q with ⟨h2, _⟩ | ⟨ht, h2, _⟩
  · rw [h2]; exact hI.lb q
  · rw [h2]
    obtain ⟨j, hj⟩ := h1.low ht
    exact Val.le_trans' (hI.lb j) (Val.le_of_lt' hj)

theorem monoAns {sync : Bool} (hsrt : IsArgsort P.argsort) (hp : 0 < p) : (algAns (p := p) ans P sync).Mono IM where
  post it _ h := IM_post hsrt hp it h
  step := by
    intro it s s' st hI h
    rw [algAns_step] at h
    cases sync with
    | true =>
      obtain ⟨r, hr, hst, rfl⟩ := stepSync_ok h
      exact selectionSync_monoA hr hI
    | false =>
      obtain ⟨r, hr, rfl, _⟩ := stepAsyncAns_ok h
      rw [hr]
      refine foldl_inv (fun acc : State σ K p n × Option Int => IM acc.1 ∧ sortLe acc.1.gfit s.gfit) ?_ _ ?_
      · rintro b i ⟨hb, hle⟩
        obtain ⟨h1, h2⟩ := selectionAsync_mono (candi := (mutation (P.from ans b.1.evals.length) (b.1.X i) (b.1.V i) (b.1.pbest i) b.1.gbest
          ((drawMat P.R.rand p n s.rng).1 i) ((drawMat P.R.rand p n (drawMat P.R.rand p n s.rng).2).1 i)).1)
          (xbest := b.1.gbest) (x := b.1.pbest) (xtol := P.xtol)
          (ftol := P.ftol) (i := i) (obj := objFrom ans b.1.evals.length) (f := (objFrom ans b.1.evals.length).one) (fun _ => rfl) hb
        exact ⟨h1, sortLe_trans h2 hle⟩
      · exact ⟨hI, sortLe_refl _⟩

end restart

/-- A completed call. -/
theorem minimizeAns_ok {env : Env} (he : env.Ok) {R : Rng σ K} {srt : Argsort K} {fuel : Nat} {a : Args K}
    {ans : Nat → Vec K a.ndim → Val K} {g : σ} {o : Output σ K a.p a.ndim} (h : minimizeAns env R srt fuel a ans g = .ok o) :
    ∃ (P : Par σ K a.ndim) (s0 : State σ K a.p a.ndim) (r : Result K a.ndim) (L : Loop (State σ K a.p a.ndim) K a.p a.ndim),
      validate a = .ok () ∧ P.argsort = srt ∧ P.gamma = a.competitivity ∧
      init (P.from ans 0) a.x0Pop (a.seeded R g) = .ok s0 ∧
      (algAns ans P a.sync).run a.cfg fuel s0 = .ok (r, L) ∧
      o = mkOut r L State.evals State.caller State.rng := by
  unfold minimizeAns at h
  rw [bind_ok_iff] at h
  obtain ⟨_, hv, h⟩ := h
  cases hfn : a.fn with
  | none => rw [hfn] at h; simp at h
  | some fn =>
    rw [hfn] at h
    dsimp only at h
    obtain ⟨obj, hobj, h⟩ := optimizer_ok he h
    rw [bind_ok_iff] at h
    obtain ⟨_, _, h⟩ := h
    rw [bind_ok_iff] at h
    obtain ⟨cons, hcons, h⟩ := h
    unfold cpsoAns at h
    rw [bind_ok_iff] at h
    obtain ⟨s0, hs0, h⟩ := h
    rw [bind_ok_iff] at h
    obtain ⟨⟨r, L⟩, hrun, h⟩ := h
    simp only [Except.ok.injEq] at h
    exact ⟨_, s0, r, L, hv, rfl, rfl, hs0, hrun, h.symm⟩

theorem Par.from_const {fn : Vec K n → Val K} (h : P.obj.Faithful fn) (k : Nat) : P.from (fun _ => fn) k = P := by
  unfold Par.from
  rw [objFrom_const h]

theorem cpsoAns_const {fn : Vec K n → Val K} (h : P.obj.Faithful fn) (sync : Bool) (c : Cfg) (fuel : Nat)
    (x0 : Option (Pop K p n)) (g : σ) : cpsoAns (fun _ => fn) P sync c fuel x0 g = cpso P sync c fuel x0 g := by
  have hs : stepSyncAns (p := p) (fun _ => fn) P = stepSync P := by
    funext it s; unfold stepSyncAns; rw [Par.from_const h]
  have hr : rowAsyncAns (p := p) (fun _ => fn) P = rowAsync P := by
    funext r1 r2 acc i; unfold rowAsyncAns; rw [Par.from_const h]
  have ha : stepAsyncAns (p := p) (fun _ => fn) P = stepAsync P := by
    funext it s; unfold stepAsyncAns stepAsync; rw [hr]
  unfold cpsoAns cpso algAns
  rw [Par.from_const h, hs, ha]
  rfl

end CPSO

/-! ## Neighbourhood algorithm -/

namespace NA
variable {σ : Type} {P : Par σ K n} {ans : Nat → Vec K n → Val K}

theorem lawsAns : (algAns (p := p) ans P).Laws P.maxiter State.evals where
  best_post _ _ := rfl
  fun_post _ _ := rfl
  ev_post _ _ := rfl
  ev_step {it s s' st} h := (laws (p := p) (P := P.from ans s.evals.length)).ev_step h
  cont {it s s'} h := (laws (p := p) (P := P.from ans s.evals.length)).cont h
  budget {it s s'} h := (laws (p := p) (P := P.from ans s.evals.length)).budget h
  codes {it s s' k} h := (laws (p := p) (P := P.from ans s.evals.length)).codes h
  noFuel it s h := (laws (p := p) (P := P.from ans s.evals.length)).noFuel it s h

/-- Values belong to points. -/
def I1A (P : Par σ K n) (ans : Nat → Vec K n → Val K) (s : State σ K p n) : Prop :=
  Inv1A False (.fin 0) (fun x => Answered ans s.evals (unnormalize P.lower P.upper x)) s.pbest s.pbestfit s.gbest s.gfit

/-- Lower bound of all answers. -/
def I2A (ans : Nat → Vec K n → Val K) (s : State σ K p n) : Prop :=
  Inv2A (fun v => ∃ x, Answered ans s.evals x v) s.pbestfit s.gfit

theorem I1A_step {it : Nat} {s s' : State σ K p n} {st : Option Int} (hI : I1A P ans s)
    (h : (algAns ans P).step it s = .ok (s', st)) : I1A P ans s' := by
  obtain ⟨X, r, _, hr, hst, rfl⟩ := step_ok h
  exact selectionSync_inv1A hr (by simp) (fun _ _ hy => Answered.append _ hy)
    (fun i => answered_ofFn (fun i => unnormalize P.lower P.upper (X.1 i)) i) hI

theorem I2A_step {it : Nat} {s s' : State σ K p n} {st : Option Int} (hI : I2A ans s)
    (h : (algAns ans P).step it s = .ok (s', st)) : I2A ans s' := by
  obtain ⟨X, r, _, hr, hst, rfl⟩ := step_ok h
  refine selectionSync_inv2A hr (fun v hv => ?_) hI
  obtain ⟨x, hx⟩ := hv
  exact (answered_cases_ofFn hx).imp (fun h => ⟨x, h⟩) id

theorem monoAns : (algAns (p := p) ans P).Mono IM where
  post _ _ h := h
  step := by
    intro it s s' st hI h
    obtain ⟨X, r, _, hr, hst, rfl⟩ := step_ok h
    exact selectionSync_monoA hr hI

/-- A completed call. -/
theorem minimizeAns_ok [IntParts K] {env : Env} (he : env.Ok) {R : Rng σ K} {srt : Argsort K} {fuel : Nat} {a : Args K}
    {ans : Nat → Vec K a.ndim → Val K} {g : σ} {o : Output σ K a.p a.ndim} (h : minimizeAns env R srt fuel a ans g = .ok o) :
    ∃ (P : Par σ K a.ndim) (s0 : State σ K a.p a.ndim) (r : Result K a.ndim) (L : Loop (State σ K a.p a.ndim) K a.p a.ndim),
      init (P.from ans 0) a.x0Pop (a.seeded R g) = .ok s0 ∧
      (algAns ans P).run a.cfg fuel s0 = .ok (r, L) ∧
      o = mkOut r L State.evals State.caller State.rng := by
  unfold minimizeAns at h
  rw [bind_ok_iff] at h
  obtain ⟨_, hv, h⟩ := h
  cases hfn : a.fn with
  | none => rw [hfn] at h; simp at h
  | some fn =>
    rw [hfn] at h
    dsimp only at h
    obtain ⟨obj, hobj, h⟩ := optimizer_ok he h
    rw [bind_ok_iff] at h
    obtain ⟨_, _, h⟩ := h
    unfold naAns at h
    rw [bind_ok_iff] at h
    obtain ⟨s0, hs0, h⟩ := h
    rw [bind_ok_iff] at h
    obtain ⟨⟨r, L⟩, hrun, h⟩ := h
    simp only [Except.ok.injEq] at h
    exact ⟨_, s0, r, L, hs0, hrun, h.symm⟩

theorem Par.from_const {fn : Vec K n → Val K} (h : P.obj.Faithful fn) (k : Nat) : P.from (fun _ => fn) k = P := by
  unfold Par.from
  rw [objFrom_const h]

theorem naAns_const {fn : Vec K n → Val K} (h : P.obj.Faithful fn) (c : Cfg) (fuel : Nat)
    (x0 : Option (Pop K p n)) (g : σ) : naAns (fun _ => fn) P c fuel x0 g = na P c fuel x0 g := by
  have hs : stepAns (p := p) (fun _ => fn) P = step P := by
    funext it s; unfold stepAns; rw [Par.from_const h]
  unfold naAns na algAns
  rw [Par.from_const h, hs]
  rfl

end NA

/-! ## cmaes and vdcma -/

namespace Evo
variable {σ S : Type} [NumFns K] [IntParts K] {P : Par K n} {G : Gauss S K p n} {c : Cfg} {ans : Nat → Vec K n → Val K}

theorem Hist.evals_length {gs : List (Gen K p n)} {L : St S K p n} (h : Hist c gs L) : L.evals.length = gs.length * p := by
  rw [h.evals, length_flatMap_ofFn]

theorem bodyAns_fit (hp : P.penalized = false) {M M' : St S K p n} {g : Gen K p n} (h : bodyAns ans P G c M = .ok (M', g)) (i : Fin p) :
    g.fit i = ans (M.evals.length + i.val) (g.X i) := by
  obtain ⟨_, a, e, rows, s, h1, h2, h3, hm, h4, h5, hr⟩ := body_ok h
  cases hr
  unfold evaluate at h2
  rw [show (P.from ans M.evals.length).penalized = false from hp] at h2
  simp only [Bool.false_eq_true, if_false, Except.ok.injEq] at h2
  subst h2
  rfl

/-- The generations of a run: `Q k g` holds of the `k`-th generation. -/
def Each (Q : Nat → Gen K p n → Prop) (gs : List (Gen K p n)) : Prop := ∀ (k : Nat) g, gs[k]? = some g → Q k g

theorem Each.snoc {Q : Nat → Gen K p n → Prop} {gs : List (Gen K p n)} {g : Gen K p n} (h : Each Q gs) (hg : Q gs.length g) :
    Each Q (gs ++ [g]) := by
  intro k g' hk
  rcases Nat.lt_or_ge k gs.length with hlt | hge
  · rw [List.getElem?_append_left hlt] at hk; exact h k g' hk
  · have hk' : k = gs.length := by
      have := (List.getElem?_eq_some_iff.1 hk).1
      simp at this; omega
    subst hk'
    rw [List.getElem?_append_right (le_refl _)] at hk
    simp at hk
    subst hk; exact hg

theorem loopAns_ok {I : St S K p n → Prop} (hI : ∀ L r, I L → bodyAns ans P G c L = .ok r → I r.1) :
    ∀ (fuel : Nat) (L : St S K p n) (r), I L → loopAns ans P G c fuel L = .ok r →
      ∃ L', I L' ∧ bodyAns ans P G c L' = .ok r ∧ r.2.status.isSome = true := by
  intro fuel
  induction fuel with
  | zero => intro L r _ h; cases h
  | succ k ih =>
    intro L r h0 h
    rw [loopAns, bind_ok_iff] at h
    obtain ⟨r1, h1, h⟩ := h
    by_cases hs : r1.2.status.isSome = true
    · rw [if_pos hs] at h; cases h; exact ⟨L, h0, h1, hs⟩
    · rw [if_neg hs] at h
      exact ih _ _ (hI _ _ h0 h1) h

/-- A completed run: its generations `gs` (the last one is `g`), each with property `Q`. -/
theorem runAns_ok {rng : S → σ} {fuel : Nat} {s0 : S} {o : Output σ K p n} (h : runAns ans P G c rng fuel s0 = .ok o)
    {Q : Nat → Gen K p n → Prop}
    (hQ : ∀ (k : Nat) M M' g, M.evals.length = k * p → bodyAns ans P G c M = .ok (M', g) → Q k g) :
    ∃ (gs : List (Gen K p n)) (g : Gen K p n) (L : St S K p n), Hist c (gs ++ [g]) L ∧ Each Q (gs ++ [g]) ∧ o.res.x = g.X g.best ∧ o.res.fval = g.fit g.best ∧
      o.res.nfev = L.nfev ∧ o.res.nit = L.it ∧ o.cbs = L.cbs ∧ o.evals = L.evals := by
  unfold runAns at h
  by_cases hm : c.maxiter < 0
  · rw [if_pos hm] at h; cases h
  rw [if_neg hm, bind_ok_iff] at h
  obtain ⟨r, h1, h⟩ := h
  rw [bind_ok_iff] at h
  obtain ⟨res, h2, h⟩ := h
  obtain ⟨L', ⟨gs, hH, hE⟩, hb, hs⟩ := loopAns_ok (I := fun L => ∃ gs, Hist c gs L ∧ Each Q gs)
    (by
      rintro L r ⟨gs, hH, hE⟩ hb
      exact ⟨gs ++ [r.2], hH.step hb, hE.snoc (hQ _ L r.1 r.2 hH.evals_length hb)⟩) fuel _ _
    ⟨[], hist_init (not_lt.1 hm), fun k g hk => by simp at hk⟩ h1
  obtain ⟨st, hst⟩ := Option.isSome_iff_exists.1 hs
  unfold finish at h2
  rw [hst] at h2
  dsimp only at h2
  cases hmsg : messages st with
  | none => rw [hmsg] at h2; cases h2
  | some msg =>
    rw [hmsg] at h2
    cases h2
    cases h
    exact ⟨gs, r.2, r.1, hH.step hb, hE.snoc (hQ _ L' r.1 r.2 hH.evals_length hb), rfl, rfl, rfl, rfl, rfl, rfl⟩

theorem Hist.evals_get {gs : List (Gen K p n)} {L : St S K p n} (h : Hist c gs L) (k : Nat) (g : Gen K p n) (hk : gs[k]? = some g)
    (i : Fin p) : L.evals[k * p + i.val]? = some (g.X i) := by
  rw [h.evals]
  clear h
  induction gs generalizing k with
  | nil => simp at hk
  | cons a gs ih =>
    rw [List.flatMap_cons]
    cases k with
    | zero =>
      simp only [List.getElem?_cons_zero, Option.some.injEq] at hk
      subst hk
      rw [List.getElem?_append_left (by simp)]
      simp
    | succ k =>
      rw [List.getElem?_cons_succ] at hk
      rw [List.getElem?_append_right (by simp [Nat.add_mul]; omega)]
      rw [List.length_ofFn, show (k + 1) * p + i.val - p = k * p + i.val by rw [Nat.add_mul]; omega]
      exact ih k hk

theorem runAns_counts {rng : S → σ} {fuel : Nat} {s0 : S} {o : Output σ K p n} (h : runAns ans P G c rng fuel s0 = .ok o) :
    CountsExact o := by
  obtain ⟨gs, g, L, hH, -, -, -, h1, h2, h3, h4⟩ := runAns_ok h (Q := fun _ _ => True) (fun _ _ _ _ _ _ => trivial)
  refine ⟨?_, ?_, ?_⟩
  · rw [h1, h4, hH.nfev, hH.evals_length]
  · rw [h1, h2, hH.nfev, hH.it, Nat.mul_comm]
  · intro b hb
    rw [h3] at hb
    by_cases hc : c.hasCallback = true
    · obtain ⟨hl, hk⟩ := hH.cbs hc
      obtain ⟨k, hk1, rfl⟩ := List.mem_iff_getElem.1 hb
      have hlt : k < (gs ++ [g]).length := by omega
      obtain ⟨b', hb', -, -, -, b5, b6, -⟩ := hk k _ (List.getElem?_eq_getElem hlt)
      rw [List.getElem?_eq_getElem hk1, Option.some.injEq] at hb'
      rw [hb', b5, b6, Nat.mul_comm]
    · rw [hH.noCbs (by simpa using hc)] at hb
      simp at hb

theorem runAns_reports (hp : P.penalized = false) (hs : IsArgsort P.srt) {rng : S → σ} {fuel : Nat} {s0 : S} {o : Output σ K p n}
    (h : runAns ans P G c rng fuel s0 = .ok o) : ReportsAnswers ans o ∧ BestAnswerOfLastGeneration ans o := by
  obtain ⟨gs, g, L, hH, hE, h1, h2, h3, -, h5, h6⟩ := runAns_ok h
    (Q := fun k g => ∀ i : Fin p, g.fit i = ans (k * p + i.val) (g.X i) ∧ sortLe (g.fit g.best) (g.fit i))
    (fun k M M' g hM hb i => ⟨by rw [← hM]; exact bodyAns_fit hp hb i, body_best (P := P.from ans M.evals.length) hs hb i⟩)
  have hlast : (gs ++ [g])[gs.length]? = some g := by simp
  have hlen : o.evals.length = gs.length * p + p := by
    rw [h6, hH.evals_length]; simp [Nat.add_mul]
  refine ⟨⟨?_, ?_⟩, ⟨?_, ?_⟩⟩
  · refine ⟨gs.length * p + g.best.val, ?_, ?_⟩
    · rw [h6, h1]; exact hH.evals_get _ _ hlast _
    · rw [h2, h1]; exact (hE _ _ hlast _).1
  · intro b hb
    rw [h5] at hb
    by_cases hc : c.hasCallback = true
    · obtain ⟨hl, hk⟩ := hH.cbs hc
      obtain ⟨k, hk1, rfl⟩ := List.mem_iff_getElem.1 hb
      have hlt : k < (gs ++ [g]).length := by omega
      have hget := List.getElem?_eq_getElem hlt
      obtain ⟨b', hb', -, b3, b4, b5, -⟩ := hk k _ hget
      rw [List.getElem?_eq_getElem hk1, Option.some.injEq] at hb'
      rw [hb', b3, b4, b5]
      refine ⟨k * p + (gs ++ [g])[k].best.val, ?_, (hE _ _ hget _).1⟩
      rw [List.getElem?_take_of_lt (by rw [Nat.add_mul]; omega), h6]
      exact hH.evals_get _ _ hget _
    · rw [hH.noCbs (by simpa using hc)] at hb
      simp at hb
  · refine ⟨gs.length * p + g.best.val, by omega, ?_, ?_⟩
    · rw [h6, h1]; exact hH.evals_get _ _ hlast _
    · rw [h2, h1]; exact (hE _ _ hlast _).1
  · intro k x hk hx hn
    have hlt : k < o.evals.length := (List.getElem?_eq_some_iff.1 hx).1
    have hi : k - gs.length * p < p := by omega
    have hk' : k = gs.length * p + (⟨k - gs.length * p, hi⟩ : Fin p).val := by
      show k = gs.length * p + (k - gs.length * p); omega
    rw [h6, hk', hH.evals_get _ _ hlast, Option.some.injEq] at hx
    obtain ⟨e1, e2⟩ := hE _ _ hlast ⟨k - gs.length * p, hi⟩
    rw [hx, ← hk'] at e1
    rw [e1] at e2
    rw [h2]
    exact e2.resolve_left hn

theorem runAns_const {fn : Vec K n → Val K} (h : P.obj.Faithful fn) (rng : S → σ) (fuel : Nat) (s0 : S) :
    runAns (fun _ => fn) P G c rng fuel s0 = run P G c rng fuel s0 := by
  have hb : bodyAns (fun _ => fn) P G c = body P G c := by
    funext L; unfold bodyAns Par.from; rw [objFrom_const h]
  have hl : ∀ fuel L, loopAns (fun _ => fn) P G c fuel L = loop P G c fuel L := by
    intro fuel
    induction fuel with
    | zero => intro L; rfl
    | succ k ih =>
      intro L
      rw [loopAns, loop, hb]
      simp only [ih]
  unfold runAns run
  simp only [hl]

/-! ### Completed calls -/

variable {env : Env} {R : Rng σ K} {srt : Argsort K} {fuel : Nat} {a : Args K} {junk : Vec K a.ndim} {g : σ}
  {o : Output σ K a.p a.ndim} {ans : Nat → Vec K a.ndim → Val K}

theorem _root_.Stochopy.CMAES.minimizeAns_ok {eigh : CMAES.Eigh K} (he : env.Ok)
    (h : CMAES.minimizeAns env R srt eigh fuel a ans junk g = .ok o) :
    ∃ (obj : Obj K a.ndim) (pen : Bool) (m : Vec K a.ndim × σ)
      (hd : 0 < a.ndim ∧ 0 < a.p ∧ 0 < a.mu ∧ a.mu ≤ a.p), consMap a.constraints = .ok pen ∧
      runAns ans (a.par srt obj pen) (CMAES.gauss { R := R, srt := srt, eigh := eigh, mu := a.mu, hmu := hd.2.2.2 }) a.cfg
        CMAES.State.rng fuel (CMAES.start m.1 junk a.sigma m.2) = .ok o := by
  unfold CMAES.minimizeAns at h
  rw [bind_ok_iff] at h
  obtain ⟨u, hv, h⟩ := h
  cases hfn : a.fn with
  | none => rw [hfn] at h; cases h
  | some fn =>
    rw [hfn] at h
    dsimp only at h
    obtain ⟨obj, hobj, h⟩ := optimizer_ok he h
    rw [bind_ok_iff] at h
    obtain ⟨u1, h1, h⟩ := h
    rw [bind_ok_iff] at h
    obtain ⟨pen, h2, h⟩ := h
    rw [bind_ok_iff] at h
    obtain ⟨m, h3, h⟩ := h
    by_cases hd : 0 < a.ndim ∧ 0 < a.p ∧ 0 < a.mu ∧ a.mu ≤ a.p
    · rw [dif_pos hd] at h
      exact ⟨obj, pen, m, hd, h2, h⟩
    · rw [dif_neg hd] at h; cases h

theorem _root_.Stochopy.VDCMA.minimizeAns_ok (he : env.Ok) (h : VDCMA.minimizeAns env R srt fuel a ans junk g = .ok o) :
    ∃ (obj : Obj K a.ndim) (pen : Bool) (m : Vec K a.ndim × σ)
      (hd : 0 < a.ndim ∧ 0 < a.p ∧ 0 < a.mu ∧ a.mu ≤ a.p), consMap a.constraints = .ok pen ∧
      runAns ans (a.par srt obj pen) (VDCMA.gauss { R := R, mu := a.mu, hmu := hd.2.2.2 }) a.cfg
        VDCMA.State.rng fuel (VDCMA.start R m.1 junk a.sigma m.2) = .ok o := by
  unfold VDCMA.minimizeAns at h
  rw [bind_ok_iff] at h
  obtain ⟨u, hv, h⟩ := h
  cases hfn : a.fn with
  | none => rw [hfn] at h; cases h
  | some fn =>
    rw [hfn] at h
    dsimp only at h
    obtain ⟨obj, hobj, h⟩ := optimizer_ok he h
    rw [bind_ok_iff] at h
    obtain ⟨u1, h1, h⟩ := h
    rw [bind_ok_iff] at h
    obtain ⟨pen, h2, h⟩ := h
    rw [bind_ok_iff] at h
    obtain ⟨m, h3, h⟩ := h
    by_cases hd : 0 < a.ndim ∧ 0 < a.p ∧ 0 < a.mu ∧ a.mu ≤ a.p
    · rw [dif_pos hd] at h
      exact ⟨obj, pen, m, hd, h2, h⟩
    · rw [dif_neg hd] at h; cases h

end Evo

end Stochopy
