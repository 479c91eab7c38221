import Verif.Lemmas.Order
import Verif.Lemmas.SamplerUnits

/-! Runs of `vdcma` with the variables in another order. -/

set_option linter.unusedSectionVars false

namespace Stochopy
variable {K σ S : Type} [Field K] [LinearOrder K] [IsStrictOrderedRing K] {p n : Nat} {π : Equiv.Perm (Fin n)}

theorem sum_reorder (π : Equiv.Perm (Fin n)) (v : Vec K n) : ArrayOps.sum (reorder π v) = ArrayOps.sum v := Equiv.sum_comp π v

theorem dot_reorder (π : Equiv.Perm (Fin n)) (v w : Vec K n) : ArrayOps.dot (reorder π v) (reorder π w) = ArrayOps.dot v w :=
  Equiv.sum_comp π fun j => v j * w j

theorem finRange_map_perm (π : Equiv.Perm (Fin n)) : ((List.finRange n).map π).Perm (List.finRange n) := by
  rw [List.perm_ext_iff_of_nodup ((List.nodup_finRange n).map π.injective) (List.nodup_finRange n)]
  intro a
  simp only [List.mem_map, List.mem_finRange, true_and, iff_true]
  exact ⟨π.symm a, π.apply_symm_apply a⟩

theorem foldl_reorder {α : Type} (π : Equiv.Perm (Fin n)) (f : α → Fin n → α) (hf : ∀ a i j, f (f a i) j = f (f a j) i) (a : α) :
    (List.finRange n).foldl (fun a j => f a (π j)) a = (List.finRange n).foldl f a := by
  haveI : RightCommutative f := ⟨hf⟩
  have := (finRange_map_perm π).foldl_eq (f := f) a
  rw [List.foldl_map] at this
  exact this

theorem exists_reorder (π : Equiv.Perm (Fin n)) (p : Fin n → Prop) : (∃ j, p (π j)) = ∃ j, p j := propext π.surjective.exists.symm

theorem forall_reorder (π : Equiv.Perm (Fin n)) (p : Fin n → Prop) : (∀ j, p (π j)) = ∀ j, p j := propext π.surjective.forall.symm

namespace Evo
variable [NumFns K] [FloorRing K]

def Pen.reorder (π : Equiv.Perm (Fin n)) (q : Pen K n) : Pen K n := { w := Stochopy.reorder π q.w, hist := q.hist, valid := q.valid, ini := q.ini }

theorem penalty_reorder (π : Equiv.Perm (Fin n)) (diagC : Vec K n) (w : Vec (Val K) n) (valid x : Vec K n) :
    penalty (reorder π diagC) (reorder π w) (reorder π valid) (reorder π x) = penalty diagC w valid x := by
  have hb : ∀ j, bndScale (reorder π diagC) j = bndScale diagC (π j) := by
    intro j
    unfold bndScale
    rw [show (ArrayOps.sum fun i => NumFns.log (reorder π diagC i)) = ArrayOps.sum fun i => NumFns.log (diagC i) from
      sum_reorder π fun i => NumFns.log (diagC i)]
    rfl
  unfold penalty vsum
  simp only [hb]
  exact foldl_reorder π (fun a j => a + .fin ((valid j - x j) ^ 2) * Val.divBy (w j) (bndScale diagC j))
    (fun a i j => Val.add_right_comm' _ _ _) (.fin 0)

theorem weightsUpdate_reorder (π : Equiv.Perm (Fin n)) (srt : Argsort K) (xmean xold : Vec K n) (sigma : K) (diagC : Vec K n) (me : K)
    (it : Nat) (hist : List (Val K)) (valid : Bool) (pen : Pen K n) :
    weightsUpdate srt (reorder π xmean) (reorder π xold) sigma (reorder π diagC) me it hist valid (pen.reorder π) =
      (reorder π (weightsUpdate srt xmean xold sigma diagC me it hist valid pen).1,
        (weightsUpdate srt xmean xold sigma diagC me it hist valid pen).2) := by
  have he : (∃ j, outside (reorder π xmean) j = true) = ∃ j, outside xmean j = true := exists_reorder π fun j => outside xmean j = true
  obtain ⟨w, _, _, ini⟩ := pen
  by_cases hx : ∃ j, outside xmean j = true
  · have hx' := he ▸ hx
    unfold weightsUpdate
    dsimp only
    rw [@decide_eq_true _ _ hx', @decide_eq_true _ _ hx]
    cases ini <;> exact Prod.ext (funext fun j => rfl) rfl
  · have hx' : ¬∃ j, outside (reorder π xmean) j = true := he ▸ hx
    unfold weightsUpdate
    dsimp only
    rw [@decide_eq_false _ _ hx', @decide_eq_false _ _ hx]
    cases ini <;> exact Prod.ext (funext fun j => rfl) rfl

theorem fitRange_reorder (π : Equiv.Perm (Fin n)) (srt : Argsort K) (fit : Fin p → Val K) (sigma : K) (diagC : Vec K n) :
    fitRange srt fit sigma (reorder π diagC) = fitRange srt fit sigma diagC := by
  unfold fitRange
  rw [sum_reorder]

theorem penalize_reorder (π : Equiv.Perm (Fin n)) (srt : Argsort K) {fit fit' : Pop K p n → Fin p → Val K}
    (hf : ∀ X, fit' (fun i => reorder π (X i)) = fit X) (arx : Pop K p n) (xmean xold : Vec K n) (sigma : K) (diagC : Vec K n) (me : K)
    (it : Nat) (pen : Pen K n) :
    penalize srt fit' (fun i => reorder π (arx i)) (reorder π xmean) (reorder π xold) sigma (reorder π diagC) me it (pen.reorder π) =
      (penalize srt fit arx xmean xold sigma diagC me it pen).map fun r => (r.1, fun i => reorder π (r.2.1 i), r.2.2.reorder π) := by
  have hd : (∀ j, 0 < reorder π diagC j) = ∀ j, 0 < diagC j := forall_reorder π fun j => 0 < diagC j
  unfold penalize
  simp only [map_bind_ex, hd]
  congr 1
  funext _
  have hh : history srt (fit' fun i => clip (reorder π (arx i))) sigma (reorder π diagC) (pen.reorder π) =
      history srt (fit fun i => clip (arx i)) sigma diagC pen := by
    have e : (fit' fun i => clip (reorder π (arx i))) = fit fun i => clip (arx i) := hf fun i => clip (arx i)
    rw [e]
    unfold history
    rw [fitRange_reorder]
    rfl
  rw [hh]
  congr 1
  funext h
  rw [weightsUpdate_reorder]
  show Except.ok _ = Except.ok _
  congr 1
  refine Prod.ext ?_ rfl
  funext i
  exact congrArg₂ (· + ·) (congrFun (hf fun i => clip (arx i)) i) (penalty_reorder π diagC (weightsUpdate srt xmean xold sigma diagC me it h.1 h.2 pen).1 (clip (arx i)) (arx i))

theorem converge_reorder (π : Equiv.Perm (Fin n)) (it : Nat) (maxiter : Int) (xmean xold : Vec K n) (arbest : List (Val K)) (fit : Fin p → Val K)
    (best : Val K) (sigma insigma : K) (ilim : Nat) (pc : Vec K n) (xtol : K) (ftol : Val K) (diagC : Vec K n) :
    converge it maxiter (reorder π xmean) (reorder π xold) arbest fit best sigma insigma ilim (reorder π pc) xtol ftol (reorder π diagC) none =
      converge it maxiter xmean xold arbest fit best sigma insigma ilim pc xtol ftol diagC none := by
  have e1 : (∃ j, 1 / 5 * sigma * NumFns.sqrt (reorder π diagC j) < 1 / 10 ^ 10) = ∃ j, 1 / 5 * sigma * NumFns.sqrt (diagC j) < 1 / 10 ^ 10 :=
    exists_reorder π fun j => 1 / 5 * sigma * NumFns.sqrt (diagC j) < 1 / 10 ^ 10
  have e2 : (∃ j, 10 ^ 3 * insigma < sigma * NumFns.sqrt (reorder π diagC j)) = ∃ j, 10 ^ 3 * insigma < sigma * NumFns.sqrt (diagC j) :=
    exists_reorder π fun j => 10 ^ 3 * insigma < sigma * NumFns.sqrt (diagC j)
  have e3 : (∀ j, sigma * absv (reorder π pc j) < 1 / 10 ^ 11 * insigma) = ∀ j, sigma * absv (pc j) < 1 / 10 ^ 11 * insigma :=
    forall_reorder π fun j => sigma * absv (pc j) < 1 / 10 ^ 11 * insigma
  have e4 : (∀ j, sigma * NumFns.sqrt (reorder π diagC j) < 1 / 10 ^ 11 * insigma) = ∀ j, sigma * NumFns.sqrt (diagC j) < 1 / 10 ^ 11 * insigma :=
    forall_reorder π fun j => sigma * NumFns.sqrt (diagC j) < 1 / 10 ^ 11 * insigma
  unfold converge
  simp only [distLe_reorder, e1, e2, e3, e4]

/-- Parameters of the frame with the variables in another order. -/
structure ReorderedPar (π : Equiv.Perm (Fin n)) (P P' : Par K n) : Prop where
  lower : P'.lower = reorder π P.lower
  upper : P'.upper = reorder π P.upper
  pop : ∀ {p : Nat} (X : Pop K p n), P'.obj.pop (fun i => reorder π (X i)) = P.obj.pop X
  srt : P'.srt = P.srt
  xtol : P'.xtol = P.xtol
  ftol : P'.ftol = P.ftol
  mueff : P'.mueff = P.mueff
  insigma : P'.insigma = P.insigma
  ilim : P'.ilim = P.ilim
  pen : P'.penalized = P.penalized

/-- A Gaussian model that treats the variables alike; `m` puts those of its state into the other order. -/
structure Fair (π : Equiv.Perm (Fin n)) (m : S → S) (G : Gauss S K p n) : Prop where
  sample : ∀ s, G.sample (m s) = (G.sample s).map fun r => (fun i => reorder π (r.1 i), m r.2)
  update : ∀ k arx o s, G.update k (fun i => reorder π (arx i)) o (m s) = (G.update k arx o s).map m
  mean : ∀ s, G.mean (m s) = reorder π (G.mean s)
  old : ∀ s, G.old (m s) = reorder π (G.old s)
  pc : ∀ s, G.pc (m s) = reorder π (G.pc s)
  sigma : ∀ s, G.sigma (m s) = G.sigma s
  diagC : ∀ s, G.diagC (m s) = reorder π (G.diagC s)
  diagConv : ∀ s, G.diagConv (m s) = reorder π (G.diagConv s)
  axes : ∀ s, G.axes s = none

def St.deal (π : Equiv.Perm (Fin n)) (m : S → S) (L : St S K p n) : St S K p n :=
  { s := m L.s, it := L.it, nfev := L.nfev, pen := L.pen.reorder π, arbest := L.arbest,
    rowsX := L.rowsX.map (List.map (reorder π)), rowsF := L.rowsF,
    cbs := L.cbs.map (CB.map id (reorder π) (reorder π)), evals := L.evals.map (reorder π) }

variable {P P' : Par K n} {G : Gauss S K p n} {c : Cfg} {m : S → S}

theorem ReorderedPar.evaluate (h : ReorderedPar π P P') (ho : Fair π m G) (it : Nat) (arx : Pop K p n) (s : S) (pen : Pen K n) :
    Evo.evaluate P' G it (fun i => reorder π (arx i)) (m s) (pen.reorder π) =
      (Evo.evaluate P G it arx s pen).map fun r => (r.1, fun i => reorder π (r.2.1 i), r.2.2.reorder π) := by
  have hf : ∀ X : Pop K p n, (P'.obj.pop fun i => unstandardize P'.lower P'.upper (reorder π (X i))) =
      P.obj.pop fun i => unstandardize P.lower P.upper (X i) := by
    intro X
    rw [h.lower, h.upper]
    exact h.pop fun i => unstandardize P.lower P.upper (X i)
  unfold Evo.evaluate
  dsimp only
  rw [h.pen, h.srt, h.mueff, ho.mean, ho.old, ho.sigma, ho.diagC]
  by_cases hp : P.penalized = true
  · rw [if_pos hp, if_pos hp]
    exact penalize_reorder π P.srt hf arx _ _ _ _ _ it pen
  · rw [if_neg hp, if_neg hp]
    show Except.ok _ = Except.ok _
    congr 1
    exact Prod.ext (hf arx) rfl

theorem ReorderedPar.body (h : ReorderedPar π P P') (ho : Fair π m G) (L : St S K p n) :
    Evo.body P' G c (L.deal π m) = (Evo.body P G c L).map fun r => (r.1.deal π m, r.2.map (reorder π)) := by
  unfold Evo.body
  simp only [map_bind_ex]
  show (G.sample (m L.s) >>= _) = _
  rw [ho.sample, bind_map_ex]
  congr 1
  funext a
  show (Evo.evaluate P' G (L.it + 1) (fun i => reorder π (a.1 i)) (m a.2) (L.pen.reorder π) >>= _) = _
  rw [h.evaluate ho, bind_map_ex]
  congr 1
  funext e
  have hu : ∀ x, unstandardize P'.lower P'.upper (reorder π x) = reorder π (unstandardize P.lower P.upper x) := by
    intro x
    rw [h.lower, h.upper]
    rfl
  dsimp only
  simp only [hu]
  rw [record_map, bind_map_ex]
  show (record c (L.it + 1) _ _ >>= _) = _
  refine congrArg _ ?_
  funext rows
  by_cases hp : 0 < p
  swap
  · rw [dif_neg hp, dif_neg hp]; rfl
  rw [dif_pos hp, dif_pos hp]
  by_cases h1 : c.maxiter ≤ ((L.it + 1 : Nat) : Int) - 1
  · rw [if_pos h1]; refine (if_pos h1).trans ?_; rfl
  · rw [if_neg h1]; refine (if_neg h1).trans ?_
    simp only [map_bind_ex]
    rw [h.srt, h.xtol, h.ftol, h.insigma, h.ilim]
    show (G.update (L.nfev + p) (fun i => reorder π (a.1 i)) _ (m a.2) >>= _) = _
    rw [ho.update, bind_map_ex]
    congr 1
    funext s
    have hd : (∀ j, 0 ≤ reorder π (G.diagConv s) j) = ∀ j, 0 ≤ G.diagConv s j := forall_reorder π fun j => 0 ≤ G.diagConv s j
    rw [ho.diagConv]
    simp only [hd]
    congr 1
    funext _
    show Except.ok _ = Except.ok _
    congr 1
    simp only [ho.mean, ho.old, ho.pc, ho.sigma, ho.axes, converge_reorder]
    refine Prod.ext ?_ rfl
    show St.mk _ _ _ _ _ _ _ _ _ = St.deal π m _
    unfold St.deal
    congr 1
    · rw [List.map_append]
    · dsimp only
      split_ifs
      · rw [List.map_append]
        congr 1
        show [CB.mk _ _ _ _ _ _ _] = [CB.map _ _ _ _]
        unfold CB.map attach
        congr 2
        · split_ifs
          · show some _ = some _
            rw [mapRows_same, List.map_append]
          · rfl
        · split_ifs
          · simp
          · rfl
      · rfl
    · refine Eq.trans ?_ List.map_append.symm
      rw [List.map_ofFn]; rfl

theorem ReorderedPar.loop (h : ReorderedPar π P P') (ho : Fair π m G) : ∀ (fuel : Nat) (L : St S K p n),
    Evo.loop P' G c fuel (L.deal π m) = (Evo.loop P G c fuel L).map fun r => (r.1.deal π m, r.2.map (reorder π)) := by
  intro fuel
  induction fuel with
  | zero => intro L; rfl
  | succ fuel ih =>
    intro L
    unfold Evo.loop
    simp only [map_bind_ex]
    rw [h.body ho, bind_map_ex]
    congr 1
    funext r
    show (if r.2.status.isSome = true then _ else _) = _
    split_ifs
    · rfl
    · exact ih r.1

theorem ReorderedPar.run (h : ReorderedPar π P P') (ho : Fair π m G) {rng : S → σ} {T : σ → σ} (hT : ∀ s, rng (m s) = T (rng s))
    (fuel : Nat) (s0 : S) :
    Evo.run P' G c rng fuel (m s0) = (Evo.run P G c rng fuel s0).map fun o => o.reorder π T := by
  unfold Evo.run
  split_ifs
  · rfl
  · simp only [map_bind_ex]
    have e := h.loop ho (c := c) fuel
      { s := s0, it := 0, nfev := 0, pen := Pen.start n,
        arbest := List.replicate c.maxiter.toNat (.fin 0), rowsX := [], rowsF := [], cbs := [], evals := [] }
    refine (congrArg (· >>= _) e).trans ?_
    rw [bind_map_ex]
    congr 1
    funext r
    have hf : finish c (r.1.deal π m, r.2.map (reorder π)) = finish c (r.1.map (reorder π), r.2.map (reorder π)) := rfl
    rw [hf, finish_map, bind_map_ex]
    congr 1
    funext res
    show Except.ok (Output.mk _ _ _ _ (rng (m r.1.s))) = _
    rw [hT]
    rfl

end Evo

/-! ### `vdcma` -/

section VDCMA
open VDCMA Evo
variable [NumFns K] [FloorRing K] {T : σ → σ}

theorem VDCMA.normV2_reorder (π : Equiv.Perm (Fin n)) (v : Vec K n) : normV2 (reorder π v) = normV2 v := dot_reorder π v v

theorem VDCMA.normV_reorder (π : Equiv.Perm (Fin n)) (v : Vec K n) : normV (reorder π v) = normV v := by
  unfold normV; rw [normV2_reorder]

theorem VDCMA.vn_reorder (π : Equiv.Perm (Fin n)) (v : Vec K n) : vn (reorder π v) = reorder π (vn v) := by
  funext j; unfold vn; rw [normV_reorder]; rfl

theorem VDCMA.vnn_reorder (π : Equiv.Perm (Fin n)) (v : Vec K n) : vnn (reorder π v) = reorder π (vnn v) := by
  funext j; unfold vnn; rw [vn_reorder]; rfl

theorem VDCMA.vmax_reorder (π : Equiv.Perm (Fin n)) (v : Vec K n) : vmax (reorder π v) = vmax v :=
  foldl_reorder π (fun a j => max a (v j)) (fun a i j => max_right_comm a (v i) (v j)) 0

theorem VDCMA.alphaBeta_reorder (π : Equiv.Perm (Fin n)) (v : Vec K n) : alphaBeta (reorder π v) = alphaBeta v := by
  unfold alphaBeta; rw [normV2_reorder, vnn_reorder, vmax_reorder]

theorem VDCMA.bsca_reorder (π : Equiv.Perm (Fin n)) (v : Vec K n) : bsca (reorder π v) = bsca v := by
  unfold bsca; rw [alphaBeta_reorder]

theorem VDCMA.avec_reorder (π : Equiv.Perm (Fin n)) (v : Vec K n) : avec (reorder π v) = reorder π (avec v) := by
  unfold avec; rw [bsca_reorder, alphaBeta_reorder, vnn_reorder]; rfl

theorem VDCMA.invavnn_reorder (π : Equiv.Perm (Fin n)) (v : Vec K n) : invavnn (reorder π v) = reorder π (invavnn v) := by
  unfold invavnn; rw [avec_reorder, vnn_reorder]; rfl

theorem VDCMA.denom_reorder (π : Equiv.Perm (Fin n)) (v : Vec K n) : denom (reorder π v) = denom v := by
  unfold denom VDCMA.dot; rw [bsca_reorder, vnn_reorder, invavnn_reorder, dot_reorder]

theorem VDCMA.spread_reorder (π : Equiv.Perm (Fin n)) (d v z : Vec K n) :
    spread (reorder π d) (reorder π v) (reorder π z) = reorder π (spread d v z) := by
  unfold spread VDCMA.dot; rw [normV2_reorder, vn_reorder, dot_reorder]; rfl

theorem VDCMA.mnorm_reorder (π : Equiv.Perm (Fin n)) (dx d v : Vec K n) :
    mnorm (reorder π dx) (reorder π d) (reorder π v) = mnorm dx d v := by
  unfold mnorm VDCMA.dot
  rw [normV2_reorder]
  exact congrArg₂ (fun a b : K => a - b ^ 2 / (1 + normV2 v)) (sum_reorder π fun j => (dx j / d j) ^ 2)
    (dot_reorder π (fun j => dx j / d j) v)

theorem VDCMA.pq_reorder (π : Equiv.Perm (Fin n)) (v y : Vec K n) :
    pq (reorder π v) (reorder π y) = (reorder π (pq v y).1, reorder π (pq v y).2) := by
  unfold pq VDCMA.dot
  rw [normV2_reorder, vn_reorder, dot_reorder]
  rfl

theorem VDCMA.pqRow_reorder (π : Equiv.Perm (Fin n)) (v y : Vec K n) :
    pqRow (reorder π v) (reorder π y) = (reorder π (pqRow v y).1, reorder π (pqRow v y).2) := by
  unfold pqRow VDCMA.dot
  rw [normV2_reorder, vn_reorder, dot_reorder]
  rfl

theorem VDCMA.pqMu_reorder (π : Equiv.Perm (Fin n)) {mu : Nat} (v : Vec K n) (y : Fin mu → Vec K n) (w : Vec K mu) :
    pqMu (reorder π v) (fun k => reorder π (y k)) w = (reorder π (pqMu v y w).1, reorder π (pqMu v y w).2) := by
  unfold pqMu
  simp only [pqRow_reorder]
  rfl

/-- The vectors `rvec` and `svec` of `ngvNgd`. -/
def VDCMA.rvec (v pv qv : Vec K n) : Vec K n := fun j => pv j - (alphaBeta v).1 / (1 + normV2 v) *
  ((2 + normV2 v) * qv j * vn v j - normV2 v * VDCMA.dot (vn v) qv * vnn v j)

def VDCMA.svec (v r : Vec K n) : Vec K n := fun j => r j / avec v j - bsca v * VDCMA.dot r (invavnn v) / denom v * invavnn v j

theorem VDCMA.ngvNgd_eq (d v pv qv : Vec K n) : ngvNgd d v pv qv =
    (fun j => qv j / normV v - (alphaBeta v).1 / normV v * ((2 + normV2 v) * (vn v j * svec v (rvec v pv qv) j) -
      VDCMA.dot (svec v (rvec v pv qv)) (vnn v) * vn v j), fun j => d j * svec v (rvec v pv qv) j) := rfl

theorem VDCMA.rvec_reorder (π : Equiv.Perm (Fin n)) (v pv qv : Vec K n) :
    rvec (reorder π v) (reorder π pv) (reorder π qv) = reorder π (rvec v pv qv) := by
  unfold rvec VDCMA.dot
  rw [normV2_reorder, vn_reorder, vnn_reorder, alphaBeta_reorder, dot_reorder]
  rfl

theorem VDCMA.svec_reorder (π : Equiv.Perm (Fin n)) (v r : Vec K n) : svec (reorder π v) (reorder π r) = reorder π (svec v r) := by
  unfold svec VDCMA.dot
  rw [avec_reorder, bsca_reorder, denom_reorder, invavnn_reorder, dot_reorder]
  rfl

theorem VDCMA.ngvNgd_reorder (π : Equiv.Perm (Fin n)) (d v pv qv : Vec K n) :
    ngvNgd (reorder π d) (reorder π v) (reorder π pv) (reorder π qv) =
      (reorder π (ngvNgd d v pv qv).1, reorder π (ngvNgd d v pv qv).2) := by
  rw [ngvNgd_eq, ngvNgd_eq, rvec_reorder, svec_reorder, normV2_reorder, normV_reorder, vn_reorder, vnn_reorder, alphaBeta_reorder]
  unfold VDCMA.dot
  rw [dot_reorder]
  rfl

theorem VDCMA.cap_right_comm (u a b c d : K) : cap (cap u a b) c d = cap (cap u c d) a b := by
  unfold cap
  split_ifs
  · rfl
  · rfl
  · rfl
  · exact min_right_comm _ _ _

theorem VDCMA.upfactor_reorder (π : Equiv.Perm (Fin n)) (d v ngv ngd : Vec K n) :
    upfactor (reorder π d) (reorder π v) (reorder π ngv) (reorder π ngd) = upfactor d v ngv ngd := by
  unfold upfactor VDCMA.dot
  rw [normV_reorder, dot_reorder]
  exact foldl_reorder π (fun up j => cap up (d j) (absv (ngd j))) (fun a i j => cap_right_comm _ _ _ _ _) _

theorem VDCMA.increments_reorder (π : Equiv.Perm (Fin n)) (A : VDCMA.Par σ K p n) (me : K) (o : Equiv.Perm (Fin p)) (cond : Bool)
    (pc d v : Vec K n) (ary : Pop K p n) :
    increments A me o cond (reorder π pc) (reorder π d) (reorder π v) (fun i => reorder π (ary i)) =
      (reorder π (increments A me o cond pc d v ary).1, reorder π (increments A me o cond pc d v ary).2) := by
  have hm : (if VDCMA.cmu n me = 0 then ((fun _ => 0, fun _ => 0) : Vec K n × Vec K n)
      else pqMu (reorder π v) (fun (k : Fin A.mu) j => reorder π (ary (o (Fin.castLE A.hmu k))) j / reorder π d j) (weights A.mu)) =
      (reorder π (if VDCMA.cmu n me = 0 then ((fun _ => 0, fun _ => 0) : Vec K n × Vec K n)
      else pqMu v (fun (k : Fin A.mu) j => ary (o (Fin.castLE A.hmu k)) j / d j) (weights A.mu)).1,
       reorder π (if VDCMA.cmu n me = 0 then ((fun _ => 0, fun _ => 0) : Vec K n × Vec K n)
      else pqMu v (fun (k : Fin A.mu) j => ary (o (Fin.castLE A.hmu k)) j / d j) (weights A.mu)).2) := by
    split_ifs
    · rfl
    · exact pqMu_reorder π v (fun (k : Fin A.mu) j => ary (o (Fin.castLE A.hmu k)) j / d j) _
  have ho : (if VDCMA.c1 n me = 0 then ((fun _ => 0, fun _ => 0) : Vec K n × Vec K n) else pq (reorder π v) fun j => reorder π pc j / reorder π d j) =
      (reorder π (if VDCMA.c1 n me = 0 then ((fun _ => 0, fun _ => 0) : Vec K n × Vec K n) else pq v fun j => pc j / d j).1,
       reorder π (if VDCMA.c1 n me = 0 then ((fun _ => 0, fun _ => 0) : Vec K n × Vec K n) else pq v fun j => pc j / d j).2) := by
    split_ifs
    · rfl
    · exact pq_reorder π v fun j => pc j / d j
  unfold increments
  simp only [hm, ho]
  by_cases h : 0 < VDCMA.cmu n me + VDCMA.c1 n me
  swap
  · rw [if_neg h, if_neg h]; rfl
  rw [if_pos h, if_pos h]
  generalize (if VDCMA.cmu n me = 0 then ((fun _ => 0, fun _ => 0) : Vec K n × Vec K n)
      else pqMu v (fun (k : Fin A.mu) j => ary (o (Fin.castLE A.hmu k)) j / d j) (weights A.mu)) = M
  generalize (if VDCMA.c1 n me = 0 then ((fun _ => 0, fun _ => 0) : Vec K n × Vec K n) else pq v fun j => pc j / d j) = N
  have e1 : (fun j => VDCMA.cmu n me * reorder π M.1 j + if cond = true then VDCMA.c1 n me * reorder π N.1 j else 0) =
      reorder π fun j => VDCMA.cmu n me * M.1 j + if cond = true then VDCMA.c1 n me * N.1 j else 0 := rfl
  have e2 : (fun j => VDCMA.cmu n me * reorder π M.2 j + if cond = true then VDCMA.c1 n me * reorder π N.2 j else 0) =
      reorder π fun j => VDCMA.cmu n me * M.2 j + if cond = true then VDCMA.c1 n me * N.2 j else 0 := rfl
  rw [e1, e2]
  simp only [ngvNgd_reorder, upfactor_reorder]
  rfl

/-- The state of `vdcma` with the variables in another order. -/
def VDCMA.State.deal (π : Equiv.Perm (Fin n)) (T : σ → σ) (s : VDCMA.State σ K p n) : VDCMA.State σ K p n :=
  { xmean := reorder π s.xmean, xold := reorder π s.xold, dx := reorder π s.dx, ps := s.ps, pc := reorder π s.pc,
    dvec := reorder π s.dvec, vvec := reorder π s.vvec, sigma := s.sigma, inj := s.inj, diagC := reorder π s.diagC,
    ary := fun i => reorder π (s.ary i), rng := T s.rng }

theorem VDCMA.advance_reorder (π : Equiv.Perm (Fin n)) (A : VDCMA.Par σ K p n) (arx : Pop K p n) (o : Equiv.Perm (Fin p))
    (s : VDCMA.State σ K p n) (u : K × K × Bool) :
    VDCMA.advance A (fun i => reorder π (arx i)) o (s.deal π T) u = (VDCMA.advance A arx o s u).deal π T := by
  have e := VDCMA.increments_reorder π A (mueff (K := K) A.mu) o u.2.2 (VDCMA.pcNext A o s u.2.2) s.dvec s.vvec s.ary
  unfold VDCMA.advance
  have hpc : VDCMA.pcNext A o (s.deal π T) u.2.2 = reorder π (VDCMA.pcNext A o s u.2.2) := rfl
  have e' : increments A (mueff (K := K) A.mu) o u.2.2 (VDCMA.pcNext A o (s.deal π T) u.2.2) (s.deal π T).dvec (s.deal π T).vvec
      (s.deal π T).ary = _ := (congrArg (fun q => increments A (mueff (K := K) A.mu) o u.2.2 q (s.deal π T).dvec (s.deal π T).vvec
      (s.deal π T).ary) hpc).trans e
  dsimp only
  rw [e']
  rfl

theorem VDCMA.fair (A : VDCMA.Par σ K p n) (h : Deals A.R.randn π T T) : Evo.Fair π (VDCMA.State.deal π T) (VDCMA.gauss A) where
  sample s := by
    show VDCMA.sample A (s.deal π T) = (VDCMA.sample A s).map _
    have hi : ∀ (X : Pop K p n) g, VDCMA.inject A (s.deal π T) (fun i => reorder π (X i)) (T g) =
        (VDCMA.inject A s X g).map fun r => (fun i => reorder π (r.1 i), T r.2) := by
      intro X g
      have em : mnorm (s.deal π T).dx (s.deal π T).dvec (s.deal π T).vvec = mnorm s.dx s.dvec s.vvec := mnorm_reorder ..
      have en : ∀ v : Vec K n, CMAES.norm (reorder π v) = CMAES.norm v := by
        intro v
        unfold CMAES.norm
        exact congrArg NumFns.sqrt (sum_reorder π fun j => v j ^ 2)
      unfold VDCMA.inject
      simp only [em]
      by_cases hs : s.inj = true
      · rw [if_pos hs]
        refine (if_pos hs).trans ?_
        rw [map_bind_ex]
        congr 1
        funext _
        rw [h]
        split_ifs
        · rfl
        · show Except.ok _ = Except.ok _
          congr 1
          refine Prod.ext ?_ rfl
          funext i j
          dsimp only
          rw [en]
          dsimp only [VDCMA.State.deal, reorder]
          split_ifs <;> rfl
      · rw [if_neg hs]; exact if_neg hs
    unfold VDCMA.sample
    simp only [map_bind_ex]
    have e : (0 < normV (s.deal π T).vvec ∧ ∀ j, 0 < (s.deal π T).dvec j) = (0 < normV s.vvec ∧ ∀ j, 0 < s.dvec j) := by
      show (0 < normV (reorder π s.vvec) ∧ ∀ j, 0 < reorder π s.dvec j) = _
      rw [normV_reorder]
      exact congrArg _ (forall_reorder π fun j => 0 < s.dvec j)
    simp only [e]
    congr 1
    funext _
    have hz : drawMat A.R.randn p n (s.deal π T).rng = _ := h.mat p s.rng
    rw [hz]
    have hsp : (fun i => spread (s.deal π T).dvec (s.deal π T).vvec (reorder π ((drawMat A.R.randn p n s.rng).1 i))) =
        fun i => reorder π (spread s.dvec s.vvec ((drawMat A.R.randn p n s.rng).1 i)) := by
      funext i
      exact VDCMA.spread_reorder ..
    show (VDCMA.inject A (s.deal π T) (fun i => spread (s.deal π T).dvec (s.deal π T).vvec (reorder π ((drawMat A.R.randn p n s.rng).1 i))) _ >>= _) = _
    rw [hsp, hi, bind_map_ex]
    rfl
  update k arx o s := by
    show VDCMA.update A k _ o (s.deal π T) = (VDCMA.update A k arx o s).map _
    have e : (0 < normV (s.deal π T).vvec ∧ (∀ j, 0 < (s.deal π T).dvec j) ∧ (∀ j, avec (s.deal π T).vvec j ≠ 0) ∧ denom (s.deal π T).vvec ≠ 0) =
        (0 < normV s.vvec ∧ (∀ j, 0 < s.dvec j) ∧ (∀ j, avec s.vvec j ≠ 0) ∧ denom s.vvec ≠ 0) := by
      show (0 < normV (reorder π s.vvec) ∧ (∀ j, 0 < reorder π s.dvec j) ∧ (∀ j, avec (reorder π s.vvec) j ≠ 0) ∧ denom (reorder π s.vvec) ≠ 0) = _
      rw [normV_reorder, avec_reorder, denom_reorder]
      have h1 := forall_reorder π fun j => 0 < s.dvec j
      have h2 := forall_reorder π fun j => avec s.vvec j ≠ 0
      exact congrArg₂ (fun a b : Prop => 0 < normV s.vvec ∧ a ∧ b ∧ denom s.vvec ≠ 0) h1 h2
    unfold VDCMA.update
    simp only [map_bind_ex, VDCMA.advance_reorder, e]
    rfl
  mean _ := rfl
  old _ := rfl
  pc _ := rfl
  sigma _ := rfl
  diagC _ := rfl
  diagConv _ := rfl
  axes _ := rfl

theorem VDCMA.start_deal {R : Rng σ K} (h : Deals R.randn π T T) (m junk : Vec K n) (sigma : K) (g : σ) :
    VDCMA.start R (reorder π m) (reorder π junk) sigma (T g) = (VDCMA.start R m junk sigma g : VDCMA.State σ K p n).deal π T := by
  unfold VDCMA.start VDCMA.State.deal
  rw [h]
  rfl

end VDCMA

end Stochopy
