import Verif.Lemmas.AffineEvo
import Verif.Lemmas.EvoJunk
import Verif.Spec.Mirror

/-! `cmaes` and `vdcma` in a mirror: the run inside the cube changes sign. -/

set_option linter.unusedSectionVars false

namespace Stochopy.Evo
variable {K σ S : Type} [Field K] [LinearOrder K] [IsStrictOrderedRing K] [NumFns K] [FloorRing K] {p n : Nat}

/-- Parameters of the frame that differ by a reflection. -/
structure Reflected (ψ : Vec K n → Vec K n) (P P' : Par K n) : Prop where
  unst : ∀ x, unstandardize P'.lower P'.upper (fun j => -x j) = ψ (unstandardize P.lower P.upper x)
  pop : ∀ {p : Nat} (X : Pop K p n), P'.obj.pop (fun i => ψ (X i)) = P.obj.pop X
  srt : P'.srt = P.srt
  xtol : P'.xtol = P.xtol
  ftol : P'.ftol = P.ftol
  insigma : P'.insigma = P.insigma
  ilim : P'.ilim = P.ilim
  pen : P.penalized = false
  pen' : P'.penalized = false

/-- A Gaussian model that does not prefer a direction; `m` reflects its state. -/
structure Odd (m : S → S) (G : Gauss S K p n) : Prop where
  sample : ∀ s, G.sample (m s) = (G.sample s).map fun r => (fun i j => -r.1 i j, m r.2)
  update : ∀ k arx o s, G.update k (fun i j => -arx i j) o (m s) = (G.update k arx o s).map m
  mean : ∀ s, G.mean (m s) = fun j => -G.mean s j
  old : ∀ s, G.old (m s) = fun j => -G.old s j
  pc : ∀ s, G.pc (m s) = fun j => -G.pc s j
  sigma : ∀ s, G.sigma (m s) = G.sigma s
  diagConv : ∀ s, G.diagConv (m s) = G.diagConv s
  axes : ∀ s, G.axes (m s) = G.axes s

def St.reflect (m : S → S) (ψ : Vec K n → Vec K n) (L : St S K p n) : St S K p n :=
  { L.map ψ with s := m L.s }

theorem distLe_neg (a b : Vec K n) (tol : K) : distLe (fun j => -a j) (fun j => -b j) tol = distLe a b tol := by
  unfold distLe
  show (decide (0 ≤ tol) && decide (∑ j, (-a j - -b j) ^ 2 ≤ tol ^ 2)) = (decide (0 ≤ tol) && decide (∑ j, (a j - b j) ^ 2 ≤ tol ^ 2))
  have h : ∀ j, (-a j - -b j) ^ 2 = (a j - b j) ^ 2 := fun j => by ring
  simp only [h]

theorem absv_neg (a : K) : absv (-a) = absv a := by
  show max (-a) (- -a) = max a (-a)
  rw [neg_neg, max_comm]

theorem converge_neg (it : Nat) (maxiter : Int) (xmean xold : Vec K n) (arbest : List (Val K)) (fit : Fin p → Val K)
    (best : Val K) (sigma insigma : K) (ilim : Nat) (pc : Vec K n) (xtol : K) (ftol : Val K) (diagC : Vec K n)
    (axes : Option (Matrix (Fin n) (Fin n) K × Vec K n)) :
    converge it maxiter (fun j => -xmean j) (fun j => -xold j) arbest fit best sigma insigma ilim (fun j => -pc j) xtol ftol diagC axes =
      converge it maxiter xmean xold arbest fit best sigma insigma ilim pc xtol ftol diagC axes := by
  unfold converge
  simp only [distLe_neg, absv_neg]

variable {ψ : Vec K n → Vec K n} {P P' : Par K n} {G : Gauss S K p n} {c : Cfg} {m : S → S}

theorem Reflected.body (h : Reflected ψ P P') (ho : Odd m G) (L : St S K p n) :
    Evo.body P' G c (L.reflect m ψ) = (Evo.body P G c L).map fun r => (r.1.reflect m ψ, r.2.map ψ) := by
  unfold Evo.body
  simp only [map_bind_ex]
  show (G.sample (m L.s) >>= _) = _
  rw [ho.sample, bind_map_ex]
  congr 1
  funext a
  unfold Evo.evaluate
  rw [h.pen, h.pen']
  show (record c (L.it + 1) (fun i => unstandardize P'.lower P'.upper fun j => -a.1 i j)
    (P'.obj.pop fun i => unstandardize P'.lower P'.upper fun j => -a.1 i j) >>= _) = _ 
  simp only [h.unst, h.pop]
  rw [record_map, bind_map_ex]
  show (record c (L.it + 1) _ _ >>= _) = _
  refine congrArg _ ?_
  funext rows
  by_cases hp : 0 < p
  swap
  · rw [dif_neg hp, dif_neg hp]; rfl
  rw [dif_pos hp, dif_pos hp]
  by_cases h1 : c.maxiter ≤ ((L.it + 1 : Nat) : Int) - 1
  · rw [if_pos h1]; refine (if_pos h1).trans ?_; rfl
  · rw [if_neg h1]; refine (if_neg h1).trans ?_
    simp only [map_bind_ex]
    rw [h.srt, h.xtol, h.ftol, h.insigma, h.ilim]
    show (G.update (L.nfev + p) (fun i j => -a.1 i j) _ (m a.2) >>= _) = _
    rw [ho.update, bind_map_ex]
    congr 1
    funext s
    rw [ho.diagConv]
    congr 1
    funext _
    show Except.ok _ = Except.ok _
    congr 1
    simp only [ho.mean, ho.old, ho.pc, ho.sigma, ho.axes, converge_neg]
    refine Prod.ext ?_ rfl
    show St.mk _ _ _ _ _ _ _ _ _ = St.reflect m ψ _
    unfold St.reflect St.map
    congr 1
    · rw [List.map_append]
    · dsimp only
      split_ifs
      · rw [List.map_append]
        congr 1
        show [CB.mk _ _ _ _ _ _ _] = [CB.map _ _ _ _]
        unfold CB.map attach
        congr 2
        · split_ifs
          · show some _ = some _
            rw [mapRows_same, List.map_append]
          · rfl
        · split_ifs
          · simp
          · rfl
      · rfl
    · refine Eq.trans ?_ List.map_append.symm
      rw [List.map_ofFn]; rfl

theorem Reflected.loop (h : Reflected ψ P P') (ho : Odd m G) : ∀ (fuel : Nat) (L : St S K p n),
    Evo.loop P' G c fuel (L.reflect m ψ) = (Evo.loop P G c fuel L).map fun r => (r.1.reflect m ψ, r.2.map ψ) := by
  intro fuel
  induction fuel with
  | zero => intro L; rfl
  | succ fuel ih =>
    intro L
    unfold Evo.loop
    simp only [map_bind_ex]
    rw [h.body ho, bind_map_ex]
    congr 1
    funext r
    show (if r.2.status.isSome = true then _ else _) = _
    split_ifs
    · rfl
    · exact ih r.1

theorem Reflected.run (h : Reflected ψ P P') (ho : Odd m G) {rng : S → σ} {T : σ → σ} (hT : ∀ s, rng (m s) = T (rng s))
    (fuel : Nat) (s0 : S) :
    Evo.run P' G c rng fuel (m s0) =
      (Evo.run P G c rng fuel s0).map fun o => { Output.map id ψ ψ o with rng := T o.rng } := by
  unfold Evo.run
  split_ifs
  · rfl
  · simp only [map_bind_ex]
    have e := h.loop ho (c := c) fuel
      { s := s0, it := 0, nfev := 0, pen := Pen.start n,
        arbest := List.replicate c.maxiter.toNat (.fin 0), rowsX := [], rowsF := [], cbs := [], evals := [] }
    refine (congrArg (· >>= _) e).trans ?_
    rw [bind_map_ex]
    congr 1
    funext r
    have hf : finish c (r.1.reflect m ψ, r.2.map ψ) = finish c (r.1.map ψ, r.2.map ψ) := rfl
    rw [hf, finish_map, bind_map_ex]
    congr 1
    funext res
    show Except.ok _ = Except.ok _
    show Except.ok (Output.mk _ _ _ _ (rng (m r.1.s))) = _
    rw [hT]
    rfl

end Stochopy.Evo

namespace Stochopy
open Evo
variable {K σ : Type} [Field K] [LinearOrder K] [IsStrictOrderedRing K] [NumFns K] [FloorRing K] {p n : Nat}
  {R : Rng σ K} {T : σ → σ} {ρ : K → K}

theorem drawVec_map {α β τ : Type} {d : σ → α × σ} {d' : τ → β × τ} {T : σ → τ} {f : α → β} (h : ∀ g, d' (T g) = (f (d g).1, T (d g).2))
    (n : Nat) (g : σ) : drawVec d' n (T g) = (fun j => f ((drawVec d n g).1 j), T (drawVec d n g).2) := by
  have e : ∀ k, (fun g => (d' g).2)^[k] (T g) = T ((fun g => (d g).2)^[k] g) := by
    intro k
    induction k with
    | zero => rfl
    | succ k ih => rw [Function.iterate_succ_apply', Function.iterate_succ_apply', ih, h]
  unfold drawVec
  refine Prod.ext ?_ ?_
  · funext j
    dsimp only
    rw [e, h]
  · exact e n

theorem Rng.Mirrors.vec (h : R.Mirrors T ρ) (n : Nat) (g : σ) :
    drawVec R.randn n (T g) = (fun j => -(drawVec R.randn n g).1 j, T (drawVec R.randn n g).2) := drawVec_map h.randn n g

theorem Rng.Mirrors.mat (h : R.Mirrors T ρ) (p n : Nat) (g : σ) :
    drawMat R.randn p n (T g) = (fun i j => -(drawMat R.randn p n g).1 i j, T (drawMat R.randn p n g).2) :=
  drawVec_map (d := drawVec R.randn n) (d' := drawVec R.randn n) (f := fun (v : Fin n → K) j => -v j) (h.vec n) p g

theorem dot_neg_right (v w : Vec K n) : ArrayOps.dot v (fun j => -w j) = -ArrayOps.dot v w := by
  show ∑ j, v j * -w j = -∑ j, v j * w j
  simp

theorem recombine_neg {mu : Nat} (h : mu ≤ p) (w : Vec K mu) (o : Equiv.Perm (Fin p)) (X : Pop K p n) :
    recombine h w o (fun i j => -X i j) = fun j => -recombine h w o X j := by
  funext j
  exact dot_neg_right w fun k => X (o (Fin.castLE h k)) j

theorem CMAES.norm_neg (v : Vec K n) : CMAES.norm (fun j => -v j) = CMAES.norm v := by
  unfold CMAES.norm
  simp only [neg_sq]

/-- The reflected state of `cmaes`. -/
def CMAES.State.reflect (T : σ → σ) (s : CMAES.State σ K n) : CMAES.State σ K n :=
  { s with
    xmean := fun j => -s.xmean j
    xold := fun j => -s.xold j
    pc := fun j => -s.pc j
    ps := fun j => -s.ps j
    rng := T s.rng }

theorem CMAES.adapt_neg (A : CMAES.Par σ K p n) (me : K) (arx : Pop K p n) (o : Equiv.Perm (Fin p)) (xold : Vec K n) (sigma : K)
    (pc : Vec K n) (cond : Bool) (C : Matrix (Fin n) (Fin n) K) :
    CMAES.adapt A me (fun i j => -arx i j) o (fun j => -xold j) sigma (fun j => -pc j) cond C =
      CMAES.adapt A me arx o xold sigma pc cond C := by
  have e : ∀ a b : K, (-a - -b) / sigma = -((a - b) / sigma) := fun a b => by ring
  funext i j
  unfold CMAES.adapt
  dsimp only
  simp only [e]
  have e2 : (ArrayOps.dot (fun k => -((arx (o (Fin.castLE A.hmu k)) i - xold i) / sigma) * weights A.mu k)
      fun k => -((arx (o (Fin.castLE A.hmu k)) j - xold j) / sigma)) =
    ArrayOps.dot (fun k => ((arx (o (Fin.castLE A.hmu k)) i - xold i) / sigma) * weights A.mu k)
      fun k => ((arx (o (Fin.castLE A.hmu k)) j - xold j) / sigma) :=
    Finset.sum_congr rfl fun k _ => by ring
  rw [e2, neg_mul_neg]

theorem CMAES.advance_neg (A : CMAES.Par σ K p n) (nfev : Nat) (arx : Pop K p n) (o : Equiv.Perm (Fin p)) (s : CMAES.State σ K n) :
    CMAES.advance A nfev (fun i j => -arx i j) o (s.reflect T) = (CMAES.advance A nfev arx o s).reflect T := by
  have e1 : ∀ x : Vec K n, CMAES.psNext n (mueff (K := K) A.mu) (s.reflect T) (fun j => -x j) =
      fun j => -CMAES.psNext n (mueff A.mu) s x j := by
    intro x
    funext j
    unfold CMAES.psNext
    dsimp only [CMAES.State.reflect]
    have : (fun k => -x k - -s.xmean k) = fun k => -(x k - s.xmean k) := by funext k; ring
    rw [this, dot_neg_right]
    ring
  have e2 : ∀ (x : Vec K n) (cond : Bool), CMAES.pcNext n (mueff (K := K) A.mu) (s.reflect T) (fun j => -x j) cond =
      fun j => -CMAES.pcNext n (mueff A.mu) s x cond j := by
    intro x cond
    funext j
    unfold CMAES.pcNext
    dsimp only [CMAES.State.reflect]
    split_ifs <;> ring
  have e3 : ∀ ps : Vec K n, CMAES.hsig n p (mueff (K := K) A.mu) nfev (fun j => -ps j) = CMAES.hsig n p (mueff A.mu) nfev ps := by
    intro ps
    unfold CMAES.hsig
    rw [CMAES.norm_neg]
  have e4 : ∀ ps : Vec K n, CMAES.sigmaNext n (mueff (K := K) A.mu) s.sigma (fun j => -ps j) = CMAES.sigmaNext n (mueff A.mu) s.sigma ps := by
    intro ps
    unfold CMAES.sigmaNext
    rw [CMAES.norm_neg]
  unfold CMAES.advance
  simp only [recombine_neg, e1, e3, e2]
  show CMAES.State.mk _ _ _ _ _ _ _ _ _ _ _ = CMAES.State.mk _ _ _ _ _ _ _ _ _ _ _
  congr 1
  · exact CMAES.adapt_neg ..
  · exact e4 _

theorem CMAES.diagonalize_reflect (A : CMAES.Par σ K p n) (s : CMAES.State σ K n) (nfev : Nat) :
    CMAES.diagonalize A (s.reflect T) nfev = (CMAES.diagonalize A s nfev).map (CMAES.State.reflect T) := by
  unfold CMAES.diagonalize
  simp only [map_bind_ex]
  rfl

theorem CMAES.odd (A : CMAES.Par σ K p n) (h : A.R.Mirrors T ρ) : Evo.Odd (CMAES.State.reflect T) (CMAES.gauss A) where
  sample s := by
    show CMAES.sample A (s.reflect T) = (CMAES.sample A s).map _
    unfold CMAES.sample
    dsimp only [CMAES.State.reflect]
    rw [h.mat]
    show Except.ok _ = Except.ok _
    congr 1
    refine Prod.ext ?_ rfl
    funext i j
    dsimp only
    simp only [mul_neg, dot_neg_right]
    ring
  update k arx o s := by
    show CMAES.update A k _ o (s.reflect T) = (CMAES.update A k arx o s).map _
    unfold CMAES.update
    simp only [map_bind_ex, CMAES.advance_neg]
    show (need (0 < s.sigma ∧ _) >>= _) = _
    congr 1
    funext _
    by_cases hc : (p : K) / (CMAES.c1 n (mueff (K := K) A.mu) + CMAES.cmu n (mueff (K := K) A.mu)) / (n : K) / 10 < ((k - s.eigeneval : Nat) : K)
    · rw [if_pos hc]; refine (if_pos hc).trans ?_; exact CMAES.diagonalize_reflect ..
    · rw [if_neg hc]; refine (if_neg hc).trans ?_; rfl
  mean _ := rfl
  old _ := rfl
  pc _ := rfl
  sigma _ := rfl
  diagConv _ := rfl
  axes _ := rfl

theorem CMAES.start_reflect (m junk : Vec K n) (sigma : K) (g : σ) :
    CMAES.start (fun j => -m j) (fun j => -junk j) sigma (T g) = (CMAES.start m junk sigma g).reflect T := by
  unfold CMAES.start CMAES.State.reflect
  simp

/-- The reflected state of `vdcma`. -/
def VDCMA.State.reflect (T : σ → σ) (s : VDCMA.State σ K p n) : VDCMA.State σ K p n :=
  { s with
    xmean := fun j => -s.xmean j
    xold := fun j => -s.xold j
    dx := fun j => -s.dx j
    pc := fun j => -s.pc j
    vvec := fun j => -s.vvec j
    ary := fun i j => -s.ary i j
    rng := T s.rng }

section VDCMA
open VDCMA

theorem dot_neg_left (v w : Vec K n) : ArrayOps.dot (fun j => -v j) w = -ArrayOps.dot v w := by
  show ∑ j, -v j * w j = -∑ j, v j * w j
  simp

theorem VDCMA.normV2_neg (v : Vec K n) : normV2 (fun j => -v j) = normV2 v := by
  unfold normV2 VDCMA.dot
  rw [dot_neg_left, dot_neg_right, neg_neg]

theorem VDCMA.normV_neg (v : Vec K n) : normV (fun j => -v j) = normV v := by unfold normV; rw [normV2_neg]

theorem VDCMA.vn_neg (v : Vec K n) : vn (fun j => -v j) = fun j => -vn v j := by
  funext j; unfold vn; rw [normV_neg]; ring

theorem VDCMA.vnn_neg (v : Vec K n) : vnn (fun j => -v j) = vnn v := by
  funext j; unfold vnn; rw [vn_neg]; ring

theorem VDCMA.alphaBeta_neg (v : Vec K n) : alphaBeta (fun j => -v j) = alphaBeta v := by
  unfold alphaBeta; rw [normV2_neg, vnn_neg]

theorem VDCMA.bsca_neg (v : Vec K n) : bsca (fun j => -v j) = bsca v := by unfold bsca; rw [alphaBeta_neg]

theorem VDCMA.avec_neg (v : Vec K n) : avec (fun j => -v j) = avec v := by
  unfold avec; rw [bsca_neg, alphaBeta_neg, vnn_neg]

theorem VDCMA.invavnn_neg (v : Vec K n) : invavnn (fun j => -v j) = invavnn v := by
  unfold invavnn; rw [avec_neg, vnn_neg]

theorem VDCMA.denom_neg (v : Vec K n) : denom (fun j => -v j) = denom v := by
  unfold denom; rw [bsca_neg, vnn_neg, invavnn_neg]

theorem VDCMA.spread_neg (d v z : Vec K n) : spread d (fun j => -v j) (fun j => -z j) = fun j => -spread d v z j := by
  funext j
  unfold spread VDCMA.dot
  rw [normV2_neg, vn_neg, dot_neg_left, dot_neg_right]
  ring

theorem VDCMA.diagCov_neg (d v : Vec K n) : diagCov d (fun j => -v j) = diagCov d v := by
  funext j; unfold diagCov; ring

theorem VDCMA.mnorm_neg (dx d v : Vec K n) : mnorm (fun j => -dx j) d (fun j => -v j) = mnorm dx d v := by
  unfold mnorm VDCMA.dot
  have e : (fun j => -dx j / d j) = fun j => -(dx j / d j) := by funext j; ring
  have e2 : ∀ j, (-dx j / d j) ^ 2 = (dx j / d j) ^ 2 := fun j => by ring
  rw [e, normV2_neg, dot_neg_left, dot_neg_right, neg_neg]
  simp only [e2]

theorem VDCMA.pq_neg (v y : Vec K n) : pq (fun j => -v j) (fun j => -y j) = ((pq v y).1, fun j => -(pq v y).2 j) := by
  unfold pq VDCMA.dot
  rw [normV2_neg, vn_neg, dot_neg_left, dot_neg_right]
  refine Prod.ext ?_ ?_ <;> funext j <;> dsimp only <;> ring

theorem VDCMA.pqRow_neg (v y : Vec K n) : pqRow (fun j => -v j) (fun j => -y j) = ((pqRow v y).1, fun j => -(pqRow v y).2 j) := by
  unfold pqRow VDCMA.dot
  rw [normV2_neg, vn_neg, dot_neg_left, dot_neg_right]
  refine Prod.ext ?_ ?_ <;> funext j <;> dsimp only <;> ring

theorem VDCMA.pqMu_neg {mu : Nat} (v : Vec K n) (y : Fin mu → Vec K n) (w : Vec K mu) :
    pqMu (fun j => -v j) (fun k j => -y k j) w = ((pqMu v y w).1, fun j => -(pqMu v y w).2 j) := by
  unfold pqMu
  simp only [pqRow_neg]
  refine Prod.ext rfl ?_
  funext j
  exact dot_neg_right ..

theorem VDCMA.ngvNgd_neg (d v pv qv : Vec K n) :
    ngvNgd d (fun j => -v j) pv (fun j => -qv j) = (fun j => -(ngvNgd d v pv qv).1 j, (ngvNgd d v pv qv).2) := by
  unfold ngvNgd VDCMA.dot
  simp only [normV2_neg, normV_neg, vn_neg, vnn_neg, alphaBeta_neg, bsca_neg, avec_neg, invavnn_neg, denom_neg, dot_neg_left, dot_neg_right,
    mul_neg, neg_mul, neg_neg]
  refine Prod.ext ?_ rfl
  funext j
  dsimp only
  ring

theorem VDCMA.upfactor_neg (d v ngv ngd : Vec K n) : upfactor d (fun j => -v j) (fun j => -ngv j) ngd = upfactor d v ngv ngd := by
  unfold upfactor VDCMA.dot
  rw [normV_neg, dot_neg_left, dot_neg_right, neg_neg]

theorem VDCMA.increments_neg (A : VDCMA.Par σ K p n) (me : K) (o : Equiv.Perm (Fin p)) (cond : Bool) (pc d v : Vec K n) (ary : Pop K p n) :
    increments A me o cond (fun j => -pc j) d (fun j => -v j) (fun i j => -ary i j) =
      (fun j => -(increments A me o cond pc d v ary).1 j, (increments A me o cond pc d v ary).2) := by
  have hm : (if VDCMA.cmu n me = 0 then ((fun _ => 0, fun _ => 0) : Vec K n × Vec K n)
      else pqMu (fun j => -v j) (fun (k : Fin A.mu) j => -ary (o (Fin.castLE A.hmu k)) j / d j) (weights A.mu)) =
      ((if VDCMA.cmu n me = 0 then ((fun _ => 0, fun _ => 0) : Vec K n × Vec K n)
      else pqMu v (fun (k : Fin A.mu) j => ary (o (Fin.castLE A.hmu k)) j / d j) (weights A.mu)).1,
       fun j => -(if VDCMA.cmu n me = 0 then ((fun _ => 0, fun _ => 0) : Vec K n × Vec K n)
      else pqMu v (fun (k : Fin A.mu) j => ary (o (Fin.castLE A.hmu k)) j / d j) (weights A.mu)).2 j) := by
    split_ifs
    · simp
    · simp only [neg_div]
      exact pqMu_neg ..
  have ho : (if VDCMA.c1 n me = 0 then ((fun _ => 0, fun _ => 0) : Vec K n × Vec K n) else pq (fun j => -v j) fun j => -pc j / d j) =
      ((if VDCMA.c1 n me = 0 then ((fun _ => 0, fun _ => 0) : Vec K n × Vec K n) else pq v fun j => pc j / d j).1,
       fun j => -(if VDCMA.c1 n me = 0 then ((fun _ => 0, fun _ => 0) : Vec K n × Vec K n) else pq v fun j => pc j / d j).2 j) := by
    split_ifs
    · simp
    · simp only [neg_div]
      exact pq_neg ..
  unfold increments
  simp only [hm, ho]
  have eq : ∀ mq oq : Vec K n, (fun j => VDCMA.cmu n me * -mq j + if cond = true then VDCMA.c1 n me * -oq j else 0) =
      fun j => -(VDCMA.cmu n me * mq j + if cond = true then VDCMA.c1 n me * oq j else 0) := by
    intro mq oq
    funext j
    split_ifs <;> ring
  simp only [eq, ngvNgd_neg, upfactor_neg]
  by_cases h : 0 < VDCMA.cmu n me + VDCMA.c1 n me
  · rw [if_pos h, if_pos h]
    simp only [mul_neg]
  · rw [if_neg h, if_neg h]
    simp

theorem VDCMA.pcNext_neg (A : VDCMA.Par σ K p n) (o : Equiv.Perm (Fin p)) (s : VDCMA.State σ K p n) (cond : Bool) :
    VDCMA.pcNext A o (s.reflect T) cond = fun j => -VDCMA.pcNext A o s cond j := by
  funext j
  unfold VDCMA.pcNext
  dsimp only [VDCMA.State.reflect]
  rw [recombine_neg]
  split_ifs <;> ring

theorem VDCMA.advance_neg (A : VDCMA.Par σ K p n) (arx : Pop K p n) (o : Equiv.Perm (Fin p)) (s : VDCMA.State σ K p n) (u : K × K × Bool) :
    VDCMA.advance A (fun i j => -arx i j) o (s.reflect T) u = (VDCMA.advance A arx o s u).reflect T := by
  have e := VDCMA.increments_neg A (mueff (K := K) A.mu) o u.2.2 (VDCMA.pcNext A o s u.2.2) s.dvec s.vvec s.ary
  unfold VDCMA.advance
  simp only [VDCMA.pcNext_neg, recombine_neg]
  show VDCMA.State.mk _ _ _ _ _ _ _ _ _ _ _ _ = VDCMA.State.mk _ _ _ _ _ _ _ _ _ _ _ _
  dsimp only [VDCMA.State.reflect]
  rw [e]
  congr 1
  · funext j; ring
  · funext j; ring
  · funext j; ring

theorem VDCMA.odd (A : VDCMA.Par σ K p n) (h : A.R.Mirrors T ρ) : Evo.Odd (VDCMA.State.reflect T) (VDCMA.gauss A) where
  sample s := by
    show VDCMA.sample A (s.reflect T) = (VDCMA.sample A s).map _
    have hi : ∀ (X : Pop K p n) g, VDCMA.inject A (s.reflect T) (fun i j => -X i j) (T g) =
        (VDCMA.inject A s X g).map fun r => (fun i j => -r.1 i j, T r.2) := by
      intro X g
      have em : mnorm (s.reflect T).dx (s.reflect T).dvec (s.reflect T).vvec = mnorm s.dx s.dvec s.vvec := mnorm_neg ..
      unfold VDCMA.inject
      simp only [em]
      by_cases hs : s.inj = true
      · rw [if_pos hs]
        refine (if_pos hs).trans ?_
        rw [map_bind_ex]
        congr 1
        funext _
        rw [h.vec]
        split_ifs
        · rfl
        · show Except.ok _ = Except.ok _
          congr 1
          refine Prod.ext ?_ rfl
          funext i j
          dsimp only
          rw [CMAES.norm_neg]
          dsimp only [VDCMA.State.reflect]
          split_ifs <;> ring
      · rw [if_neg hs]; exact if_neg hs
    unfold VDCMA.sample
    simp only [map_bind_ex]
    have e : (0 < normV (s.reflect T).vvec ∧ ∀ j, 0 < (s.reflect T).dvec j) = (0 < normV s.vvec ∧ ∀ j, 0 < s.dvec j) := by
      show (0 < normV (fun j => -s.vvec j) ∧ _) = _
      rw [normV_neg]
      rfl
    simp only [e]
    congr 1
    funext _
    have hz : drawMat A.R.randn p n (s.reflect T).rng = _ := h.mat p n s.rng
    rw [hz]
    have hsp : (fun i => spread (s.reflect T).dvec (s.reflect T).vvec fun j => -(drawMat A.R.randn p n s.rng).1 i j) =
        fun i j => -spread s.dvec s.vvec ((drawMat A.R.randn p n s.rng).1 i) j := by
      funext i
      exact VDCMA.spread_neg ..
    show (VDCMA.inject A (s.reflect T) (fun i => spread (s.reflect T).dvec (s.reflect T).vvec fun j => -(drawMat A.R.randn p n s.rng).1 i j) _ >>= _) = _
    rw [hsp, hi, bind_map_ex]
    congr 1
    funext r
    show Except.ok _ = Except.ok _
    congr 1
    dsimp only [VDCMA.State.reflect]
    rw [VDCMA.diagCov_neg]
    refine Prod.ext ?_ rfl
    funext i j
    dsimp only
    ring
  update k arx o s := by
    show VDCMA.update A k _ o (s.reflect T) = (VDCMA.update A k arx o s).map _
    have e : (0 < normV (s.reflect T).vvec ∧ (∀ j, 0 < (s.reflect T).dvec j) ∧ (∀ j, avec (s.reflect T).vvec j ≠ 0) ∧ denom (s.reflect T).vvec ≠ 0) =
        (0 < normV s.vvec ∧ (∀ j, 0 < s.dvec j) ∧ (∀ j, avec s.vvec j ≠ 0) ∧ denom s.vvec ≠ 0) := by
      show (0 < normV (fun j => -s.vvec j) ∧ (∀ j, 0 < s.dvec j) ∧ (∀ j, avec (fun j => -s.vvec j) j ≠ 0) ∧ denom (fun j => -s.vvec j) ≠ 0) = _
      rw [normV_neg, avec_neg, denom_neg]
    unfold VDCMA.update
    simp only [map_bind_ex, VDCMA.advance_neg, e]
    rfl
  mean _ := rfl
  old _ := rfl
  pc _ := rfl
  sigma _ := rfl
  diagConv _ := rfl
  axes _ := rfl

theorem VDCMA.start_reflect (h : R.Mirrors T ρ) (m junk : Vec K n) (sigma : K) (g : σ) :
    VDCMA.start R (fun j => -m j) (fun j => -junk j) sigma (T g) = (VDCMA.start R m junk sigma g : VDCMA.State σ K p n).reflect T := by
  unfold VDCMA.start VDCMA.State.reflect
  rw [h.vec]
  simp [neg_div]

end VDCMA

end Stochopy
