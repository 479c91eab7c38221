import Verif.Lemmas.Logged
import Verif.Lemmas.Laws
import Verif.Spec.Prefix

/-! Two runs of the frame of `de`, `cpso` and `na` that differ in when they stop and what they report. -/

set_option linter.unusedSectionVars false

namespace Stochopy
variable {K σ S : Type} [AddZeroClass K] [One K] [Sub K] [Mul K] [Div K] [Neg K] [NatCast K] [IntCast K] [Pow K ℕ] [ArrayOps K] [LinearOrder K] {p n : Nat}

/-- The same algorithm but for the status. -/
structure SameAlg (A A' : Alg S K p n) : Prop where
  step : ∀ it s, (A'.step it s).map Prod.fst = (A.step it s).map Prod.fst
  post : A'.post = A.post
  cbX : A'.cbX = A.cbX
  best : A'.best = A.best
  bestFun : A'.bestFun = A.bestFun
  rec0X : A'.rec0X = A.rec0X
  rec0Best : A'.rec0Best = A.rec0Best
  recX : A'.recX = A.recX
  pfit : A'.pfit = A.pfit

theorem SameAlg.symm {A A' : Alg S K p n} (h : SameAlg A A') : SameAlg A' A where
  step it s := (h.step it s).symm
  post := h.post.symm
  cbX := h.cbX.symm
  best := h.best.symm
  bestFun := h.bestFun.symm
  rec0X := h.rec0X.symm
  rec0Best := h.rec0Best.symm
  recX := h.recX.symm
  pfit := h.pfit.symm

variable {A A' : Alg S K p n} {c c' : Cfg} {s0 : S} {l l' : List S} {st st' : Option Int}

theorem SameAlg.next (h : SameAlg A A') {it : Nat} {s t t' : S} (h1 : A.next it s = .ok (t, st)) (h2 : A'.next it s = .ok (t', st')) :
    t' = t := by
  unfold Alg.next at h1 h2
  rw [h.post] at h2
  have e := h.step (it + 1) (if it = 1 then s else A.post it s)
  rw [h1, h2] at e
  exact Except.ok.inj e

theorem SameAlg.hist_eq (h : SameAlg A A') (h1 : A.Hist s0 l st) : ∀ {l' st'}, A'.Hist s0 l' st' → l'.length = l.length → l' = l := by
  induction h1 with
  | init =>
    intro l' st' h2 hl
    cases h2 with
    | init => rfl
    | next => simp at hl
  | @next s s' l st h1 hn ih =>
    intro l' st' h2 hl
    cases h2 with
    | init => simp at hl
    | @next t t' m st' h2 hn' =>
      simp only [List.length_cons, Nat.add_right_cancel_iff] at hl
      have e := ih h2 (by simpa using hl)
      simp only [List.cons.injEq] at e
      obtain ⟨rfl, rfl⟩ := e
      rw [h.next hn hn']

theorem Alg.Hist.drop (h : A.Hist s0 l st) : ∀ k, k < l.length → ∃ st', A.Hist s0 (l.drop k) st' := by
  induction h with
  | init => intro k hk; simp at hk; subst hk; exact ⟨_, .init⟩
  | @next s s' l st h1 hn ih =>
    intro k hk
    cases k with
    | zero => exact ⟨_, .next h1 hn⟩
    | succ k => exact ih k (by simpa using hk)

/-- The shorter history is the end of the longer one (histories are listed latest first). -/
theorem SameAlg.suffix (h : SameAlg A A') (h1 : A.Hist s0 l st) (h2 : A'.Hist s0 l' st') (hl : l.length ≤ l'.length) : l <:+ l' := by
  obtain ⟨st'', h3⟩ := h2.drop (l'.length - l.length) (by have := h1.length_pos; omega)
  have e := h.hist_eq h1 h3 (by rw [List.length_drop]; omega)
  rw [← e]
  exact List.drop_suffix _ _

theorem Alg.Hist.evals {ev : S → List (Vec K n)} (h : A.Hist s0 l st) (hstep : ∀ it s r, A.step it s = .ok r → ev s <+: ev r.1)
    (hpost : ∀ it s, ev (A.post it s) = ev s) : ∀ s t, l = s :: t → ∀ u ∈ l, ev u <+: ev s := by
  induction h with
  | init => intro s t e u hu; simp at e hu; obtain ⟨rfl, rfl⟩ := e; subst hu; exact List.prefix_refl _
  | @next s s' l st h1 hn ih =>
    intro a t e u hu
    simp only [List.cons.injEq] at e
    obtain ⟨rfl, rfl⟩ := e
    rcases List.mem_cons.1 hu with rfl | hu
    · exact List.prefix_refl _
    · refine (ih s l rfl u hu).trans ?_
      unfold Alg.next at hn
      have := hstep _ _ _ hn
      split_ifs at this
      · exact this
      · rwa [hpost] at this

theorem SameAlg.rowOk (h : SameAlg A A') (hn : c'.nout = c.nout) {it : Nat} {s : S} {x x' : List (Vec K n)} {f f' : List (Val K)}
    (h1 : A.rowOk c it s x f) (h2 : A'.rowOk c' it s x' f') : x' = x ∧ f' = f := by
  unfold Alg.rowOk at h1 h2
  rw [hn, h.rec0X, h.rec0Best, h.recX, h.pfit, h.bestFun] at h2
  rcases h1 with ⟨a1, a2, a3, -⟩ | ⟨a1, a2, a3, a4⟩ | ⟨a1, a2, i, a3, a4, a5⟩ <;>
    rcases h2 with ⟨b1, b2, b3, -⟩ | ⟨b1, b2, b3, b4⟩ | ⟨b1, b2, j, b3, b4, b5⟩
  any_goals omega
  · exact ⟨b2.trans a2.symm, b3.trans a3.symm⟩
  · exact ⟨b3.trans a3.symm, b4.trans a4.symm⟩
  · rw [a3] at b3
    cases b3
    exact ⟨b4.trans a4.symm, b5.trans a5.symm⟩

theorem prefix_of_getElem? {α : Type} {l l' : List α} (h : ∀ (k : Nat) x, l[k]? = some x → l'[k]? = some x) : l <+: l' := by
  rw [List.prefix_iff_eq_take]
  have hlen : l.length ≤ l'.length := by
    by_contra hlt
    have hlt : l'.length < l.length := by omega
    have := h l'.length _ (List.getElem?_eq_getElem hlt)
    simp at this
  apply List.ext_getElem?
  intro k
  rcases Nat.lt_or_ge k l.length with hk | hk
  · rw [List.getElem?_take_of_lt hk, List.getElem?_eq_getElem hk, h k _ (List.getElem?_eq_getElem hk)]
  · rw [List.getElem?_eq_none hk, List.getElem?_eq_none (by rw [List.length_take]; omega)]

theorem reverse_getElem?_suffix {α : Type} {l l' : List α} (h : l <:+ l') {k : Nat} {x : α} (hx : l.reverse[k]? = some x) :
    l'.reverse[k]? = some x := by
  obtain ⟨t, rfl⟩ := h
  rw [List.reverse_append, List.getElem?_append_left (List.getElem?_eq_some_iff.1 hx).1]
  exact hx

/-- One direction of `SameSearch`. -/
theorem SameAlg.begins (h : SameAlg A A') {ev : S → List (Vec K n)} {cl : S → Option (Pop K p n)} {rg : S → σ}
    (hstep : ∀ it s r, A'.step it s = .ok r → ev s <+: ev r.1) (hpost : ∀ it s, ev (A'.post it s) = ev s)
    {fuel fuel' : Nat} {r r' : Result K n} {L L' : Loop S K p n} (h1 : A.run c fuel s0 = .ok (r, L))
    (h2 : A'.run c' fuel' s0 = .ok (r', L')) (hn : r.nit ≤ r'.nit) :
    Begins id id (mkOut r L ev cl rg) (mkOut r' L' ev cl rg) ∧
      (c'.nout = c.nout → BeginsRecord id id (mkOut r L ev cl rg) (mkOut r' L' ev cl rg)) := by
  obtain ⟨l, st, msg, hH, hl, hlog, -, rfl⟩ := run_hist h1
  obtain ⟨l', st', msg', hH', hl', hlog', -, rfl⟩ := run_hist h2
  change l.length + 1 ≤ l'.length + 1 at hn
  have hsuf : (L.s :: l) <:+ (L'.s :: l') := h.suffix hH hH' (by simpa using hn)
  have hget : (L.s :: l).reverse[l.length]? = some L.s := by simp
  have hget' : (L'.s :: l').reverse[l'.length]? = some L'.s := by simp
  refine ⟨⟨?_, ?_, ?_, ?_⟩, fun hno => ⟨?_, ?_⟩⟩
  · exact hH'.evals hstep hpost _ _ rfl _ (hsuf.subset (List.mem_cons_self ..))
  · intro b hb b' hb' hnit
    obtain ⟨s, -, k, rfl, hk⟩ := hlog.mem_cbs hb
    obtain ⟨s', -, k', rfl, hk'⟩ := hlog'.mem_cbs hb'
    change k' + 1 = k + 1 at hnit
    obtain rfl : k' = k := by omega
    rw [reverse_getElem?_suffix hsuf hk, Option.some.injEq] at hk'
    subst hk'
    unfold Alg.cb
    rw [h.cbX, h.best, h.bestFun]
    exact ⟨rfl, rfl, rfl, rfl⟩
  · intro b' hb' hnit
    obtain ⟨s', -, k', rfl, hk'⟩ := hlog'.mem_cbs hb'
    change k' + 1 = l.length + 1 at hnit
    obtain rfl : k' = l.length := by omega
    rw [reverse_getElem?_suffix hsuf hget, Option.some.injEq] at hk'
    subst hk'
    unfold Alg.cb
    rw [h.best, h.bestFun]
    exact ⟨rfl, rfl, rfl⟩
  · intro hnit
    change l'.length + 1 = l.length + 1 at hnit
    have e := hsuf.eq_of_length (by simp; omega)
    simp only [List.cons.injEq] at e
    obtain ⟨e, -⟩ := e
    show A'.best L'.s = A.best L.s ∧ A'.bestFun L'.s = A.bestFun L.s ∧ (l'.length + 1) * p = (l.length + 1) * p ∧
      ev L'.s = ev L.s ∧ rg L'.s = rg L.s ∧ cl L'.s = cl L.s
    rw [h.best, h.bestFun, e, hnit]
    exact ⟨rfl, rfl, rfl, rfl, rfl, rfl⟩
  · intro xs xs' hx hx'
    obtain ⟨hr, rfl⟩ := attach_eq_some hx
    obtain ⟨hr', rfl⟩ := attach_eq_some hx'
    refine prefix_of_getElem? fun k x hk => ?_
    have hlen := (hlog.rows_length.2 hr).1
    have hlt := (List.getElem?_eq_some_iff.1 hk).1
    have hs : (L.s :: l).reverse[k]? = some ((L.s :: l).reverse[k]'(by rw [List.length_reverse]; omega)) := List.getElem?_eq_getElem _
    obtain ⟨x1, f1, e1, e2, e3⟩ := hlog.rows hr k _ hs
    obtain ⟨x2, f2, e4, e5, e6⟩ := hlog'.rows hr' k _ (reverse_getElem?_suffix hsuf hs)
    rw [hk, Option.some.injEq] at e1
    rw [e4, (h.rowOk hno e3 e6).1, e1]
  · intro xs xs' hx hx'
    obtain ⟨hr, rfl⟩ := attach_eq_some hx
    obtain ⟨hr', rfl⟩ := attach_eq_some hx'
    rw [show (List.map id : List (Val K) → _) = id from funext fun _ => List.map_id _, List.map_id, List.map_id]
    refine prefix_of_getElem? fun k x hk => ?_
    have hlen := (hlog.rows_length.2 hr).2
    have hlt := (List.getElem?_eq_some_iff.1 hk).1
    have hs : (L.s :: l).reverse[k]? = some ((L.s :: l).reverse[k]'(by rw [List.length_reverse]; omega)) := List.getElem?_eq_getElem _
    obtain ⟨x1, f1, e1, e2, e3⟩ := hlog.rows hr k _ hs
    obtain ⟨x2, f2, e4, e5, e6⟩ := hlog'.rows hr' k _ (reverse_getElem?_suffix hsuf hs)
    rw [hk, Option.some.injEq] at e2
    rw [e5, (h.rowOk hno e3 e6).2, e2]

theorem SameAlg.sameSearch (h : SameAlg A A') {ev : S → List (Vec K n)} {cl : S → Option (Pop K p n)} {rg : S → σ}
    (hstep : ∀ it s r, A.step it s = .ok r → ev s <+: ev r.1) (hpost : ∀ it s, ev (A.post it s) = ev s)
    {fuel fuel' : Nat} {r r' : Result K n} {L L' : Loop S K p n} (h1 : A.run c fuel s0 = .ok (r, L))
    (h2 : A'.run c' fuel' s0 = .ok (r', L')) :
    SameSearch id (mkOut r L ev cl rg) (mkOut r' L' ev cl rg) ∧
      (c'.nout = c.nout → SameRecords id (mkOut r L ev cl rg) (mkOut r' L' ev cl rg)) := by
  have hstep' : ∀ it s r, A'.step it s = .ok r → ev s <+: ev r.1 := by
    intro it s r hr
    have e := h.step it s
    rw [hr] at e
    cases hA : A.step it s with
    | error => rw [hA] at e; cases e
    | ok r0 =>
      rw [hA] at e
      have := hstep it s r0 hA
      rwa [show r0.1 = r.1 from (Except.ok.inj e).symm] at this
  have hpost' : ∀ it s, ev (A'.post it s) = ev s := by rw [h.post]; exact hpost
  exact ⟨⟨fun hn => (h.begins hstep' hpost' h1 h2 hn).1, fun hn => (h.symm.begins hstep hpost h2 h1 hn).1⟩,
    fun hno => ⟨fun hn => (h.begins hstep' hpost' h1 h2 hn).2 hno, fun hn => (h.symm.begins hstep hpost h2 h1 hn).2 hno.symm⟩⟩

end Stochopy
