import Verif.Lemmas.EvoRun
import Verif.Lemmas.AffineEvo
import Verif.Spec.Prefix

/-! Two runs of `cmaes` or `vdcma` that differ in when they stop, what they report, and by a change of the values. -/

set_option linter.unusedSectionVars false

namespace Stochopy.Evo
variable {K σ S : Type} [AddZeroClass K] [One K] [Sub K] [Mul K] [Div K] [Neg K] [NatCast K] [IntCast K] [Pow K ℕ] [ArrayOps K] [LinearOrder K] [NumFns K] [IntParts K] {p n : Nat}
  {P P' : Par K n} {G : Gauss S K p n} {c c' : Cfg} {rng : S → σ} {fuel fuel' : Nat} {s0 : S} {o o' : Output σ K p n}
  {φ φ' : Val K → Val K}

/-- Parameters with which the search is the same; the values agree after `φ` and `φ'`. -/
structure Kin (φ φ' : Val K → Val K) (P P' : Par K n) : Prop where
  lower : P'.lower = P.lower
  upper : P'.upper = P.upper
  mueff : P'.mueff = P.mueff
  penalized : P'.penalized = P.penalized
  srtEq : P'.srt = P.srt
  obj : ∀ {p : Nat} (X : Pop K p n) i, φ' (P'.obj.pop X i) = φ (P.obj.pop X i)
  srt : ∀ {p : Nat} (v v' : Fin p → Val K), (∀ i, φ' (v' i) = φ (v i)) → P'.srt p v' = P.srt p v
  arg : ∀ {p : Nat} (v v' : Fin p → Val K), (∀ i, φ' (v' i) = φ (v i)) → argmin v' = argmin v
  pen : P.penalized = true → φ = id ∧ φ' = id

/-- The generations (latest first) that lead to a state. -/
inductive Path (P : Par K n) (G : Gauss S K p n) (c : Cfg) (s0 : S) : List (Gen K p n) → St S K p n → Prop
  | init : Path P G c s0 [] (init c s0)
  | step {gs L r} : Path P G c s0 gs L → body P G c L = .ok r → Path P G c s0 (r.2 :: gs) r.1

variable {gs gs' : List (Gen K p n)} {L L' : St S K p n}

theorem Path.hist (h : Path P G c s0 gs L) (hm : 0 ≤ c.maxiter) : Hist c gs.reverse L := by
  induction h with
  | init => exact hist_init hm
  | step _ hb ih => rw [List.reverse_cons]; exact ih.step hb

/-- The same generation, the values apart. -/
def GenAlike (φ φ' : Val K → Val K) (g g' : Gen K p n) : Prop :=
  g'.X = g.X ∧ g'.best = g.best ∧ ∀ i, φ' (g'.fit i) = φ (g.fit i)

/-- The same state as far as the search is concerned. -/
structure StAlike (φ φ' : Val K → Val K) (c c' : Cfg) (L L' : St S K p n) : Prop where
  s : L'.s = L.s
  it : L'.it = L.it
  nfev : L'.nfev = L.nfev
  pen : L'.pen = L.pen
  evals : L'.evals = L.evals
  rows : c.returnAll = true → c'.returnAll = true → c'.nout = c.nout →
    L'.rowsX = L.rowsX ∧ L'.rowsF.map (List.map φ') = L.rowsF.map (List.map φ)

theorem record_alike (h : Kin φ φ' P P') {it it' : Nat} {X : Pop K p n} {fit fit' : Fin p → Val K}
    (hf : ∀ i, φ' (fit' i) = φ (fit i)) (hr : c.returnAll = true) (hr' : c'.returnAll = true) (hn : c'.nout = c.nout) {rows rows'}
    (h1 : record c it X fit = .ok rows) (h2 : record c' it' X fit' = .ok rows') :
    rows'.1 = rows.1 ∧ rows'.2.map (List.map φ') = rows.2.map (List.map φ) := by
  have hmap : (List.ofFn fit').map φ' = (List.ofFn fit).map φ := by
    rw [List.map_ofFn, List.map_ofFn]; congr 1; funext i; exact hf i
  unfold record at h1 h2
  rw [if_pos hr] at h1
  rw [if_pos hr', hn] at h2
  by_cases h0 : 0 < c.nout
  · rw [if_pos h0] at h1 h2
    split_ifs at h1 h2 <;> first | (cases h1; done) | (cases h2; done) | skip
    · cases h1; cases h2
      refine ⟨rfl, ?_⟩
      simp only [List.map_cons, List.map_nil, List.map_take, hmap]
    · rename_i hp _
      cases h1; cases h2
      refine ⟨rfl, ?_⟩
      subst hp
      have := hf 0
      simp [List.ofFn_succ, this]
  · rw [if_neg h0, bind_ok_iff] at h1 h2
    obtain ⟨i, hi, h1⟩ := h1
    obtain ⟨i', hi', h2⟩ := h2
    rw [h.arg _ _ hf, hi] at hi'
    cases hi'
    split_ifs at h1 h2
    cases h1; cases h2
    refine ⟨rfl, ?_⟩
    simp only [List.map_cons, List.map_nil, hf]

theorem Kin.evaluate (h : Kin φ φ' P P') {it : Nat} {arx : Pop K p n} {s : S} {pen : Pen K n} {e e'}
    (h1 : evaluate P G it arx s pen = .ok e) (h2 : Evo.evaluate P' G it arx s pen = .ok e') :
    e'.2 = e.2 ∧ ∀ i, φ' (e'.1 i) = φ (e.1 i) := by
  unfold Evo.evaluate at h1 h2
  rw [h.penalized, h.lower, h.upper, h.mueff, h.srtEq] at h2
  by_cases hp : P.penalized = true
  · rw [if_pos hp] at h1 h2
    obtain ⟨rfl, rfl⟩ := h.pen hp
    have : (fun X : Pop K p n => P'.obj.pop fun i => unstandardize P.lower P.upper (X i)) =
        fun X => P.obj.pop fun i => unstandardize P.lower P.upper (X i) := by
      funext X i; exact h.obj _ i
    rw [this, h1] at h2
    cases h2
    exact ⟨rfl, fun _ => rfl⟩
  · rw [if_neg hp] at h1 h2
    cases h1; cases h2
    exact ⟨rfl, fun i => h.obj _ i⟩

theorem Kin.body (h : Kin φ φ' P P') (hL : StAlike φ φ' c c' L L') {r r'} (h1 : body P G c L = .ok r)
    (h2 : body P' G c' L' = .ok r') : StAlike φ φ' c c' r.1 r'.1 ∧ GenAlike φ φ' r.2 r'.2 := by
  obtain ⟨hp, a, e, rows, s, a1, a2, a3, -, a4, -, rfl⟩ := body_ok h1
  obtain ⟨hp', a', e', rows', s', b1, b2, b3, -, b4, -, rfl⟩ := body_ok h2
  rw [hL.s, a1] at b1
  cases b1
  rw [hL.it, hL.pen] at b2
  obtain ⟨e1, e2⟩ := h.evaluate a2 b2
  have e3 : P'.srt p e'.1 = P.srt p e.1 := h.srt _ _ e2
  rw [hL.nfev, e3, a4] at b4
  cases b4
  have e4 : (fun i => unstandardize P'.lower P'.upper (e'.2.1 i)) = fun i => unstandardize P.lower P.upper (e.2.1 i) := by
    rw [e1, h.lower, h.upper]
  rw [hL.it, e4] at b3
  refine ⟨⟨rfl, ?_, ?_, ?_, ?_, ?_⟩, e4, ?_, e2⟩
  · show L'.it + 1 = L.it + 1; rw [hL.it]
  · show L'.nfev + p = L.nfev + p; rw [hL.nfev]
  · show e'.2.2 = e.2.2; rw [e1]
  · show L'.evals ++ List.ofFn _ = L.evals ++ List.ofFn _; rw [hL.evals, e4]
  · intro hr hr' hn
    obtain ⟨d1, d2⟩ := hL.rows hr hr' hn
    obtain ⟨d3, d4⟩ := record_alike h e2 hr hr' hn a3 b3
    show L'.rowsX ++ rows'.1 = L.rowsX ++ rows.1 ∧ (L'.rowsF ++ rows'.2).map _ = (L.rowsF ++ rows.2).map _
    rw [d1, d3, List.map_append, List.map_append, d2, d4]
    exact ⟨rfl, rfl⟩
  · show P'.srt p e'.1 ⟨0, hp'⟩ = P.srt p e.1 ⟨0, hp⟩; rw [e3]

theorem Kin.path (h : Kin φ φ' P P') (h1 : Path P G c s0 gs L) : ∀ {gs' L'}, Path P' G c' s0 gs' L' → gs'.length = gs.length →
    StAlike φ φ' c c' L L' ∧ List.Forall₂ (GenAlike φ φ') gs gs' := by
  induction h1 with
  | init =>
    intro gs' L' h2 hl
    cases h2 with
    | init => exact ⟨⟨rfl, rfl, rfl, rfl, rfl, fun _ _ _ => ⟨rfl, rfl⟩⟩, .nil⟩
    | step => simp at hl
  | step _ hb ih =>
    intro gs' L' h2 hl
    cases h2 with
    | init => simp at hl
    | step h2 hb' =>
      obtain ⟨i1, i2⟩ := ih h2 (by simpa using hl)
      obtain ⟨j1, j2⟩ := h.body i1 hb hb'
      exact ⟨j1, .cons j2 i2⟩

/-- An earlier state of a path. -/
theorem Path.drop (h : Path P G c s0 gs L) : ∀ k, k ≤ gs.length → ∃ M, Path P G c s0 (gs.drop k) M ∧ M.evals <+: L.evals ∧
    M.rowsX <+: L.rowsX ∧ M.rowsF <+: L.rowsF := by
  induction h with
  | init => intro k _; exact ⟨_, by simpa using Path.init, List.prefix_refl _, List.prefix_refl _, List.prefix_refl _⟩
  | @step gs L r h1 hb ih =>
    intro k hk
    cases k with
    | zero => exact ⟨_, .step h1 hb, List.prefix_refl _, List.prefix_refl _, List.prefix_refl _⟩
    | succ k =>
      obtain ⟨M, m1, m2, m3, m4⟩ := ih k (by simpa using hk)
      obtain ⟨_, _, _, _, _, _, _, _, _, _, _, rfl⟩ := body_ok hb
      exact ⟨M, m1, m2.trans (List.prefix_append _ _), m3.trans (List.prefix_append _ _), m4.trans (List.prefix_append _ _)⟩

/-- A completed run as a path. -/
theorem run_path (h : run P G c rng fuel s0 = .ok o) :
    ∃ g gs L, Path P G c s0 (g :: gs) L ∧ Hist c (g :: gs).reverse L ∧ o.cbs = L.cbs ∧ o.evals = L.evals ∧ o.rng = rng L.s ∧
      o.x0After = none ∧ o.res.x = g.X g.best ∧ o.res.fval = g.fit g.best ∧ o.res.nit = gs.length + 1 ∧
      o.res.nfev = (gs.length + 1) * p ∧ o.res.xall = attach c L.rowsX ∧ o.res.funall = attach c L.rowsF := by
  have hm : 0 ≤ c.maxiter := by
    by_contra hm
    unfold run at h
    rw [if_pos (by omega)] at h
    cases h
  have hx : o.x0After = none := by
    unfold run at h
    rw [if_neg (by omega), bind_ok_iff] at h
    obtain ⟨_, _, h⟩ := h
    rw [bind_ok_iff] at h
    obtain ⟨_, _, h⟩ := h
    cases h
    rfl
  obtain ⟨gs0, g, L', L, st, H⟩ := run_ok h (fun L => ∃ gs, Path P G c s0 gs L) ⟨[], .init⟩
    fun L r ⟨gs, hL⟩ hb => ⟨r.2 :: gs, .step hL hb⟩
  obtain ⟨gs, hgs⟩ := H.inv
  have hP : Path P G c s0 (g :: gs) L := .step hgs H.last
  have hH := hP.hist hm
  have hlen : gs.length + 1 = L.it := by rw [hH.it]; simp
  obtain ⟨msg, -, hr⟩ := H.res
  refine ⟨g, gs, L, hP, hH, H.cbs, H.evals, H.final, hx, ?_, ?_, ?_, ?_, ?_, ?_⟩
  · rw [hr]
  · rw [hr]
  · rw [hr, hlen]
  · rw [hr]; show L.nfev = _; rw [hH.nfev]; simp
  · rw [hr]
  · rw [hr]

theorem Hist.mem_cbs {gs : List (Gen K p n)} (h : Hist c gs L) {b : CB K p n} (hb : b ∈ L.cbs) :
    ∃ k g, gs[k]? = some g ∧ b.X = g.X ∧ b.x = g.X g.best ∧ b.fval = g.fit g.best ∧ b.nfev = (k + 1) * p ∧ b.nit = k + 1 := by
  cases hc : c.hasCallback with
  | false => rw [h.noCbs hc] at hb; simp at hb
  | true =>
    obtain ⟨l1, hk⟩ := h.cbs hc
    obtain ⟨k, hk1, hk2⟩ := List.getElem_of_mem hb
    obtain ⟨b', b1, b2, b3, b4, b5, b6, -⟩ := hk k _ (List.getElem?_eq_getElem (by omega))
    rw [List.getElem?_eq_getElem hk1, hk2, Option.some.injEq] at b1
    subst b1
    exact ⟨k, _, List.getElem?_eq_getElem (by omega), b2, b3, b4, b5, b6⟩

theorem Kin.begins (h : Kin φ φ' P P') (h1 : run P G c rng fuel s0 = .ok o) (h2 : run P' G c' rng fuel' s0 = .ok o')
    (hn : o.res.nit ≤ o'.res.nit) : Begins φ φ' o o' ∧ (c'.nout = c.nout → BeginsRecord φ φ' o o') := by
  obtain ⟨g, gs, L, a1, a2, a3, a4, a5, a6, a7, a8, a9, a10, a11, a12⟩ := run_path h1
  obtain ⟨g', gs', L', b1, b2, b3, b4, b5, b6, b7, b8, b9, b10, b11, b12⟩ := run_path h2
  rw [a9, b9] at hn
  obtain ⟨M, m1, m2, m3, m4⟩ := b1.drop (gs'.length - gs.length) (by simp; omega)
  obtain ⟨i1, i2⟩ := h.path a1 m1 (by simp; omega)
  -- the generations of the longer run
  have key : ∀ (k : Nat) u, (g :: gs).reverse[k]? = some u → ∃ u', (g' :: gs').reverse[k]? = some u' ∧ GenAlike φ φ' u u' := by
    intro k u hu
    have hlt := (List.getElem?_eq_some_iff.1 hu).1
    have f := List.forall₂_reverse_iff.2 i2
    have hlt' : k < (List.drop (gs'.length - gs.length) (g' :: gs')).reverse.length := by rw [← f.length_eq]; exact hlt
    refine ⟨(List.drop (gs'.length - gs.length) (g' :: gs')).reverse[k], ?_, ?_⟩
    · have e : (g' :: gs').reverse = (List.drop (gs'.length - gs.length) (g' :: gs')).reverse ++
          (List.take (gs'.length - gs.length) (g' :: gs')).reverse := by
        rw [← List.reverse_append, List.take_append_drop]
      rw [e, List.getElem?_append_left hlt', List.getElem?_eq_getElem hlt']
    · have := f.get hlt hlt'
      rw [List.getElem?_eq_getElem hlt, Option.some.injEq] at hu
      rw [← hu]
      exact this
  have hlast : (g :: gs).reverse[gs.length]? = some g := by simp
  refine ⟨⟨?_, ?_, ?_, ?_⟩, fun hno => ⟨?_, ?_⟩⟩
  · rw [a4, b4, ← i1.evals]; exact m2
  · intro b hb b' hb' hnit
    rw [a3] at hb
    rw [b3] at hb'
    obtain ⟨k, u, c1, c2, c3, c4, c5, c6⟩ := a2.mem_cbs hb
    obtain ⟨k', u', d1, d2, d3, d4, d5, d6⟩ := b2.mem_cbs hb'
    obtain rfl : k' = k := by omega
    obtain ⟨u'', e1, e2, e3, e4⟩ := key k' u c1
    rw [d1, Option.some.injEq] at e1
    subst e1
    refine ⟨by rw [d2, c2, e2], by rw [d3, c3, e2, e3], by rw [d4, c4, e3, e4], by rw [d5, c5]⟩
  · intro b' hb' hnit
    rw [b3] at hb'
    obtain ⟨k', u', d1, d2, d3, d4, d5, d6⟩ := b2.mem_cbs hb'
    obtain rfl : k' = gs.length := by omega
    obtain ⟨u'', e1, e2, e3, e4⟩ := key _ g hlast
    rw [d1, Option.some.injEq] at e1
    subst e1
    refine ⟨by rw [d3, a7, e2, e3], by rw [d4, a8, e3, e4], by rw [d5, a10]⟩
  · intro hnit
    have hl : gs'.length - gs.length = 0 := by omega
    rw [hl] at m1 i2
    obtain ⟨j1, j2⟩ := h.path a1 b1 (by simp; omega)
    obtain ⟨e2, e3, e4⟩ : GenAlike φ φ' g g' := by cases j2; assumption
    refine ⟨by rw [b7, a7, e2, e3], by rw [b8, a8, e3, e4], ?_, by rw [b4, a4, j1.evals], by rw [b5, a5, j1.s], by rw [b6, a6]⟩
    rw [b10, a10, show gs'.length = gs.length by omega]
  · intro xs xs' hx hx'
    rw [a11] at hx
    rw [b11] at hx'
    unfold attach at hx hx'
    split_ifs at hx hx' with hr hr'
    cases hx; cases hx'
    rw [← (i1.rows hr hr' hno).1]
    exact m3
  · intro xs xs' hx hx'
    rw [a12] at hx
    rw [b12] at hx'
    unfold attach at hx hx'
    split_ifs at hx hx' with hr hr'
    cases hx; cases hx'
    rw [← (i1.rows hr hr' hno).2]
    exact m4.map _

theorem sameSearch (h : Kin φ id P P') (h' : Kin id φ P' P) (h1 : run P G c rng fuel s0 = .ok o)
    (h2 : run P' G c' rng fuel' s0 = .ok o') : SameSearch φ o o' ∧ (c'.nout = c.nout → SameRecords φ o o') :=
  ⟨⟨fun hn => (h.begins h1 h2 hn).1, fun hn => (h'.begins h2 h1 hn).1⟩,
    fun hno => ⟨fun hn => (h.begins h1 h2 hn).2 hno, fun hn => (h'.begins h2 h1 hn).2 hno.symm⟩⟩

end Stochopy.Evo

namespace Stochopy
open Evo
variable {K σ : Type} [AddZeroClass K] [One K] [Sub K] [Mul K] [Div K] [Neg K] [NatCast K] [IntCast K] [Pow K ℕ] [ArrayOps K] [LinearOrder K] [NumFns K] [IntParts K] {env : Env} {R : Rng σ K} {srt : Argsort K}
  {eigh : CMAES.Eigh K} {fuel : Nat} {g : σ} {a : Args K} {junk : Vec K a.ndim} {fn : Vec K a.ndim → Val K} {pen : Bool}

theorem CMAES.minimize_run (he : env.Ok) {o : Output σ K a.p a.ndim} (h : CMAES.minimize env R srt eigh fuel a junk g = .ok o) :
    ∃ (fn : Vec K a.ndim → Val K) (pen : Bool) (m : Vec K a.ndim × σ) (hd : 0 < a.ndim ∧ 0 < a.p ∧ 0 < a.mu ∧ a.mu ≤ a.p),
      a.fn = some fn ∧ consMap a.constraints = .ok pen ∧ a.firstMean R (a.seeded R g) = .ok m ∧
      run (a.par srt (plainObj fn) pen)
        (CMAES.gauss { R := R, srt := srt, eigh := eigh, mu := a.mu, hmu := hd.2.2.2 }) a.cfg CMAES.State.rng fuel
        (CMAES.start m.1 junk a.sigma m.2) = .ok o := by
  cases hfn : a.fn with
  | none => rw [CMAES.minimize_none hfn] at h; cases h
  | some fn =>
    rw [CMAES.minimize_some he hfn, bind_ok_iff] at h
    obtain ⟨-, -, h⟩ := h
    by_cases hm : a.backend = some "mpi" ∧ env.mpi4py = false
    · rw [if_pos hm] at h; cases h
    rw [if_neg hm, bind_ok_iff] at h
    obtain ⟨-, -, h⟩ := h
    rw [bind_ok_iff] at h
    obtain ⟨pen, hc, h⟩ := h
    rw [bind_ok_iff] at h
    obtain ⟨m, hf, h⟩ := h
    by_cases hd : 0 < a.ndim ∧ 0 < a.p ∧ 0 < a.mu ∧ a.mu ≤ a.p
    · rw [dif_pos hd] at h
      exact ⟨fn, pen, m, hd, rfl, hc, hf, h⟩
    · rw [dif_neg hd] at h; cases h

theorem VDCMA.minimize_run (he : env.Ok) {o : Output σ K a.p a.ndim} (h : VDCMA.minimize env R srt fuel a junk g = .ok o) :
    ∃ (fn : Vec K a.ndim → Val K) (pen : Bool) (m : Vec K a.ndim × σ) (hd : 0 < a.ndim ∧ 0 < a.p ∧ 0 < a.mu ∧ a.mu ≤ a.p),
      a.fn = some fn ∧ consMap a.constraints = .ok pen ∧ a.firstMean R (a.seeded R g) = .ok m ∧
      run (a.par srt (plainObj fn) pen) (VDCMA.gauss { R := R, mu := a.mu, hmu := hd.2.2.2 }) a.cfg VDCMA.State.rng fuel
        (VDCMA.start R m.1 junk a.sigma m.2) = .ok o := by
  cases hfn : a.fn with
  | none => rw [VDCMA.minimize_none hfn] at h; cases h
  | some fn =>
    rw [VDCMA.minimize_some he hfn, bind_ok_iff] at h
    obtain ⟨-, -, h⟩ := h
    by_cases hm : a.backend = some "mpi" ∧ env.mpi4py = false
    · rw [if_pos hm] at h; cases h
    rw [if_neg hm, bind_ok_iff] at h
    obtain ⟨-, -, h⟩ := h
    rw [bind_ok_iff] at h
    obtain ⟨pen, hc, h⟩ := h
    rw [bind_ok_iff] at h
    obtain ⟨m, hf, h⟩ := h
    by_cases hd : 0 < a.ndim ∧ 0 < a.p ∧ 0 < a.mu ∧ a.mu ≤ a.p
    · rw [dif_pos hd] at h
      exact ⟨fn, pen, m, hd, rfl, hc, hf, h⟩
    · rw [dif_neg hd] at h; cases h

theorem Evo.kin_report (r : Reporting K) :
    Evo.Kin id id (a.par srt (plainObj fn) pen) ((a.report r).par srt (plainObj fn) pen) where
  lower := rfl
  upper := rfl
  mueff := rfl
  penalized := rfl
  srtEq := rfl
  obj _ _ := rfl
  srt v v' h := by rw [show v' = v from funext h]; rfl
  arg v v' h := by rw [show v' = v from funext h]
  pen _ := ⟨rfl, rfl⟩

theorem Evo.kin_report' (r : Reporting K) :
    Evo.Kin id id ((a.report r).par srt (plainObj fn) pen) (a.par srt (plainObj fn) pen) where
  lower := rfl
  upper := rfl
  mueff := rfl
  penalized := rfl
  srtEq := rfl
  obj _ _ := rfl
  srt v v' h := by rw [show v' = v from funext h]; rfl
  arg v v' h := by rw [show v' = v from funext h]
  pen _ := ⟨rfl, rfl⟩

theorem Evo.kin_revalue {φ : Val K → Val K} (hφ : Rising φ) (hs : Comparing srt φ) :
    Evo.Kin φ id (a.par srt (plainObj fn) false) ((a.revalue φ).par srt (plainObj fun x => φ (fn x)) false) where
  lower := rfl
  upper := rfl
  mueff := rfl
  penalized := rfl
  srtEq := rfl
  obj _ _ := rfl
  srt v v' h := by rw [show v' = fun i => φ (v i) from funext h]; exact hs _ v
  arg v v' h := by rw [show v' = fun i => φ (v i) from funext h]; exact hφ.argmin v
  pen h := by cases h

theorem Evo.kin_revalue' {φ : Val K → Val K} (hφ : Rising φ) (hs : Comparing srt φ) :
    Evo.Kin id φ ((a.revalue φ).par srt (plainObj fun x => φ (fn x)) false) (a.par srt (plainObj fn) false) where
  lower := rfl
  upper := rfl
  mueff := rfl
  penalized := rfl
  srtEq := rfl
  obj _ _ := rfl
  srt v v' h := by rw [show v = fun i => φ (v' i) from funext fun i => (h i).symm]; exact (hs _ v').symm
  arg v v' h := by rw [show v = fun i => φ (v' i) from funext fun i => (h i).symm]; exact (hφ.argmin v').symm
  pen h := by cases h

end Stochopy
