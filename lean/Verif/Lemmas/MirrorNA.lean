import Verif.Lemmas.SymmetryAlg
import Verif.Lemmas.Mirror
import Verif.Lemmas.MirrorEvo

/-! `na` in a mirror: the Voronoi walk in the unit cube. -/

set_option linter.unusedSectionVars false

namespace Stochopy
variable {K σ : Type} [Field K] [LinearOrder K] [IsStrictOrderedRing K] {p n : Nat}

namespace NA

/-- The middle of the unit cube stays where it is. -/
def turn (x : Vec K n) : Vec K n := mirror (fun _ => 1) x

def valTurn : Val K → Val K
  | .fin k => .fin (1 - k)
  | v => v

theorem lim_turn (v u d1 d2 : K) : lim (1 - v) (1 - u) d1 d2 = valTurn (lim v u d1 d2) := by
  unfold lim npDiv
  have e : (1 - v) - (1 - u) = -(v - u) := by ring
  rw [e]
  by_cases h : v - u = 0
  · rw [h, neg_zero, if_pos rfl]
    split_ifs <;> rfl
  · rw [if_neg h, if_neg (neg_ne_zero.2 h)]
    show Val.fin _ = Val.fin _
    congr 1
    rw [div_neg]
    ring

theorem lowLim_turn (l : List (Val K)) (x : K) : lowLim (l.map valTurn) (1 - x) = 1 - highLim l x := by
  unfold lowLim highLim
  have : ∀ acc : K, (l.map valTurn).foldl (fun acc l => match l with
      | .fin l => if l ≤ 1 - x then max l acc else acc
      | _ => acc) (1 - acc) = 1 - l.foldl (fun acc l => match l with
      | .fin l => if x ≤ l then min l acc else acc
      | _ => acc) acc := by
    induction l with
    | nil => intro acc; rfl
    | cons v l ih =>
      intro acc
      cases v with
      | fin k =>
        rw [List.map_cons, List.foldl_cons, List.foldl_cons, ← ih]
        congr 1
        show (if 1 - k ≤ 1 - x then max (1 - k) (1 - acc) else 1 - acc) = 1 - if x ≤ k then min k acc else acc
        have hk : 1 - k ≤ 1 - x ↔ x ≤ k := sub_le_sub_iff_left 1
        simp only [hk]
        split_ifs
        · rcases le_total k acc with h | h
          · rw [min_eq_left h, max_eq_left (sub_le_sub_left h 1)]
          · rw [min_eq_right h, max_eq_right (sub_le_sub_left h 1)]
        · rfl
      | nan => exact ih acc
      | pinf => exact ih acc
      | ninf => exact ih acc
  have := this 1
  rw [sub_self] at this
  exact this

theorem valTurn_valTurn (v : Val K) : valTurn (valTurn v) = v := by
  cases v with
  | fin k => show Val.fin _ = Val.fin _; rw [sub_sub_cancel]
  | _ => rfl

theorem highLim_turn (l : List (Val K)) (x : K) : highLim (l.map valTurn) (1 - x) = 1 - lowLim l x := by
  have := lowLim_turn (l.map valTurn) (1 - x)
  rw [List.map_map, show (valTurn ∘ valTurn : Val K → Val K) = id from funext valTurn_valTurn, List.map_id, sub_sub_cancel] at this
  rw [this, sub_sub_cancel]

def Walk.turn (T : σ → σ) (s : Walk σ K n) : Walk σ K n :=
  { x := NA.turn s.x, d1 := s.d1, W := s.W.map fun w => (NA.turn w.1, w.2), rng := T s.rng }

theorem turn_update (x : Vec K n) (j : Fin n) (v : K) : NA.turn (Function.update x j v) = Function.update (NA.turn x) j (1 - v) := by
  funext i
  by_cases h : i = j
  · subst h; rw [Function.update_self]; show 1 - Function.update x i v i = _; rw [Function.update_self]
  · rw [Function.update_of_ne h]; show 1 - Function.update x j v i = _; rw [Function.update_of_ne h]; rfl

theorem sq_turn (x y : Vec K n) (j : Fin n) : (NA.turn x j - NA.turn y j) ^ 2 = (x j - y j) ^ 2 := by
  show ((1 - x j) - (1 - y j)) ^ 2 = _
  ring

theorem walkStep_turn {R : Rng σ K} {T : σ → σ} (hr : ∀ g, R.rand (T g) = (1 - (R.rand g).1, T (R.rand g).2)) {mask : Fin n → Bool}
    (hm : ∀ j, mask j = true) (vk : Vec K n) (st : Walk σ K n) (j : Fin n) :
    walkStep R mask (NA.turn vk) (st.turn T) j = (walkStep R mask vk st j).turn T := by
  unfold walkStep
  rw [if_pos (hm j), if_pos (hm j)]
  have hl : ((st.turn T).W.map fun w => lim (NA.turn vk j) (w.1 j) (st.turn T).d1 w.2) =
      (st.W.map fun w => lim (vk j) (w.1 j) st.d1 w.2).map valTurn := by
    show ((st.W.map fun w => (NA.turn w.1, w.2)).map _) = _
    rw [List.map_map, List.map_map]
    refine List.map_congr_left fun w _ => ?_
    exact lim_turn _ _ _ _
  have hx : (st.turn T).x j = 1 - st.x j := rfl
  have hg : (st.turn T).rng = T st.rng := rfl
  have hu : ∀ l h u : K, unif (1 - h) (1 - l) (1 - u) = 1 - unif l h u := fun l h u => by unfold unif; ring
  simp only [hl, hx, hg, hr, lowLim_turn, highLim_turn, hu]
  have hup : Function.update (st.turn T).x j (1 - unif (lowLim (st.W.map fun w => lim (vk j) (w.1 j) st.d1 w.2) (st.x j))
      (highLim (st.W.map fun w => lim (vk j) (w.1 j) st.d1 w.2) (st.x j)) (R.rand st.rng).1) =
      NA.turn (Function.update st.x j (unif (lowLim (st.W.map fun w => lim (vk j) (w.1 j) st.d1 w.2) (st.x j))
      (highLim (st.W.map fun w => lim (vk j) (w.1 j) st.d1 w.2) (st.x j)) (R.rand st.rng).1)) := (turn_update _ _ _).symm
  rw [hup]
  split_ifs with h
  · unfold Walk.turn
    simp only [sq_turn, List.map_map]
    congr 1
    refine List.map_congr_left fun w _ => ?_
    show (NA.turn w.1, _) = (NA.turn w.1, _)
    simp only [sq_turn]
  · rfl

theorem walk_turn {R : Rng σ K} {T : σ → σ} (hr : ∀ g, R.rand (T g) = (1 - (R.rand g).1, T (R.rand g).2)) {mask : Fin n → Bool}
    (hm : ∀ j, mask j = true) (Xall : List (Vec K n)) (k : Fin Xall.length) (g : σ) :
    walk R mask (Xall.map NA.turn) (k.cast (by simp)) (T g) = (walk R mask Xall k g).turn T := by
  unfold walk
  have hk : (Xall.map NA.turn).get (k.cast (by simp)) = NA.turn (Xall.get k) := by simp
  have hf : ∀ (l : List (Fin n)) (st : Walk σ K n), l.foldl (walkStep R mask (NA.turn (Xall.get k))) (st.turn T) =
      (l.foldl (walkStep R mask (Xall.get k)) st).turn T := by
    intro l
    induction l with
    | nil => intro st; rfl
    | cons j l ih => intro st; rw [List.foldl_cons, List.foldl_cons, walkStep_turn hr hm, ih]
  dsimp only
  rw [hk]
  refine Eq.trans ?_ (hf _ _)
  congr 1
  unfold Walk.turn
  dsimp only
  congr 1
  rw [List.map_map]
  show List.map _ ((Xall.map NA.turn).eraseIdx k) = _
  rw [List.eraseIdx_map, List.map_map]
  refine List.map_congr_left fun u _ => ?_
  show (NA.turn u, _) = (NA.turn u, _)
  congr 2
  funext l
  exact sq_turn _ _ _

theorem mutRow_turn {R : Rng σ K} {T : σ → σ} (hr : ∀ g, R.rand (T g) = (1 - (R.rand g).1, T (R.rand g).2)) (srt : Argsort K)
    {mask : Fin n → Bool} (hm : ∀ j, mask j = true) (All : List (Vec K n × Val K)) (nr : Nat) (i : Fin p) (g : σ) :
    mutRow R srt mask (All.map fun q => (NA.turn q.1, q.2)) nr i (T g) =
      (mutRow R srt mask All nr i g).map fun r => (NA.turn r.1, T r.2) := by
  unfold mutRow
  have e : (All.map fun q => (NA.turn q.1, q.2)).map Prod.fst = (All.map Prod.fst).map NA.turn := by rw [List.map_map, List.map_map]; rfl
  have key : ∀ (L : List (Vec K n)) (hL : L = (All.map Prod.fst).map NA.turn) (v : Fin L.length → Val K)
      (hv : ∀ k : Fin L.length, v k = (All.get (k.cast (by simp [hL]))).2),
      (if h : i.val % nr < L.length then
        (Except.ok ((walk R mask L (srt _ v ⟨i.val % nr, h⟩) (T g)).x,
          (walk R mask L (srt _ v ⟨i.val % nr, h⟩) (T g)).rng) : Except PyErr (Vec K n × σ))
      else .error .indexError) =
      (if h : i.val % nr < (All.map Prod.fst).length then
        let v : Fin (All.map Prod.fst).length → Val K := fun k => (All.get (k.cast (by simp))).2
        let w := walk R mask (All.map Prod.fst) (srt _ v ⟨i.val % nr, h⟩) g
        (.ok (w.x, w.rng) : Except PyErr (Vec K n × σ))
      else .error .indexError).map fun r => (NA.turn r.1, T r.2) := by
    intro L hL v hv
    subst hL
    by_cases h : i.val % nr < (All.map Prod.fst).length
    · have h' : i.val % nr < ((All.map Prod.fst).map NA.turn).length := by rw [List.length_map]; exact h
      rw [dif_pos h, dif_pos h']
      dsimp only
      have hc : ∀ (m m' : Nat) (hm : m' = m) (v : Fin m → Val K) (v' : Fin m' → Val K) (_ : ∀ k, v' k = v (k.cast hm)) (r : Nat) (hr : r < m)
          (hr' : r < m'), srt m' v' ⟨r, hr'⟩ = (srt m v ⟨r, hr⟩).cast hm.symm := by
        intro m m' hm v v' hv r hr hr'
        subst hm
        rw [show v' = v from funext hv]
        rfl
      rw [hc (All.map Prod.fst).length _ (List.length_map _) (fun k => (All.get (k.cast (by simp))).2) v hv _ h h']
      rw [walk_turn hr hm]
      rfl
    · have h' : ¬ i.val % nr < ((All.map Prod.fst).map NA.turn).length := by rw [List.length_map]; exact h
      rw [dif_neg h, dif_neg h']
      rfl
  refine key _ e _ fun k => ?_
  simp

theorem seqFinS_map {ε α β τ : Type} (f : α → β) (T : τ → τ) : ∀ {p : Nat} {r r' : Fin p → τ → Except ε (α × τ)}
    {q : Fin p → τ → Except ε (β × τ)} (_ : ∀ i g, q i (T g) = (r i g).map fun a => (f a.1, T a.2)) (g : τ),
    seqFinS q (T g) = (seqFinS r g).map fun a => (fun i => f (a.1 i), T a.2)
  | 0, r, _, q, _, g => by
    show Except.ok _ = Except.ok _
    congr 1
    refine Prod.ext (funext fun i => i.elim0) rfl
  | p + 1, r, _, q, h, g => by
    unfold seqFinS
    rw [h 0 g, bind_map_ex, map_bind_ex]
    congr 1
    funext a
    rw [seqFinS_map f T (r := fun i => r i.succ) (r' := fun i => r i.succ) (q := fun i => q i.succ) (fun i g => h i.succ g), bind_map_ex, map_bind_ex]
    congr 1
    funext b
    show Except.ok _ = Except.ok _
    congr 1
    refine Prod.ext (funext fun i => ?_) rfl
    refine Fin.cases rfl (fun i => rfl) i

theorem mutation_turn {R : Rng σ K} {T : σ → σ} (hr : ∀ g, R.rand (T g) = (1 - (R.rand g).1, T (R.rand g).2)) (srt : Argsort K)
    {mask : Fin n → Bool} (hm : ∀ j, mask j = true) (All : List (Vec K n × Val K)) (p nr : Nat) (g : σ) :
    mutation R srt mask (All.map fun q => (NA.turn q.1, q.2)) p nr (T g) =
      (mutation R srt mask All p nr g).map fun r => (fun i => NA.turn (r.1 i), T r.2) :=
  seqFinS_map NA.turn T (r := mutRow R srt mask All nr) (r' := mutRow R srt mask All nr)
    (fun i g => mutRow_turn hr srt hm All nr i g) g

def State.reflect (t : Nat → K) (T : σ → σ) (s : State σ K p n) : State σ K p n :=
  { X := fun i => NA.turn (s.X i), pbest := fun i => NA.turn (s.pbest i), gbest := NA.turn s.gbest, pbestfit := s.pbestfit,
    gfit := s.gfit, pfit := s.pfit, All := s.All.map fun q => (NA.turn q.1, q.2), caller := s.caller.map fun x i => mirror t (x i),
    evals := s.evals.map (mirror t), rng := T s.rng }

/-- Two parameter sets of `na` for a box and its mirror image. -/
structure Reflected (t : Nat → K) (T : σ → σ) (P P' : Par σ K n) : Prop where
  box : ∀ j, P.lower j < P.upper j
  lower : P'.lower = mirror t P.upper
  upper : P'.upper = mirror t P.lower
  R : P'.R = P.R
  srt : P'.argsort = P.argsort
  nr : P'.nr = P.nr
  maxiter : P'.maxiter = P.maxiter
  prob : SameProblem (fun v => v) (mirror t) P.obj P'.obj P.xtol P'.xtol P.ftol P'.ftol
  xtol : P'.xtol = P.xtol
  rand : ∀ g, P.R.rand (T g) = (1 - (P.R.rand g).1, T (P.R.rand g).2)

variable {t : Nat → K} {T : σ → σ} {P P' : Par σ K n}

theorem Reflected.span (h : Reflected t T P P') (j : Fin n) : P'.upper j - P'.lower j = P.upper j - P.lower j := by
  rw [h.upper, h.lower]; unfold mirror; ring

theorem Reflected.mask (h : Reflected t T P P') : (∀ j, spanMask P.lower P.upper j = true) ∧ ∀ j, spanMask P'.lower P'.upper j = true := by
  constructor
  · intro j; exact decide_eq_true (sub_pos.2 (h.box j))
  · intro j; unfold spanMask; rw [h.span]; exact decide_eq_true (sub_pos.2 (h.box j))

theorem Reflected.unnorm (h : Reflected t T P P') (x : Vec K n) :
    unnormalize P'.lower P'.upper (NA.turn x) = mirror t (unnormalize P.lower P.upper x) := by
  funext j
  have e : mirror t (unnormalize P.lower P.upper x) j = t j - unnormalize P.lower P.upper x j := rfl
  rw [e]
  unfold unnormalize
  rw [if_pos (h.mask.1 j), if_pos (h.mask.2 j), h.span, h.lower]
  unfold NA.turn mirror
  ring

theorem Reflected.norm (h : Reflected t T P P') (x : Vec K n) :
    normalize P'.lower P'.upper (mirror t x) = NA.turn (normalize P.lower P.upper x) := by
  funext j
  have e : NA.turn (normalize P.lower P.upper x) j = 1 - normalize P.lower P.upper x j := rfl
  rw [e]
  unfold normalize
  rw [if_pos (h.mask.1 j), if_pos (h.mask.2 j), h.span, h.lower]
  unfold mirror
  have := sub_ne_zero.2 (h.box j).ne'
  field_simp
  ring

theorem Reflected.objN (h : Reflected t T P P') : SameProblem (fun v => v) NA.turn P.objN P'.objN P.xtol P'.xtol P.ftol P'.ftol where
  rising := rising_id
  pop X := by
    show P'.obj.pop (fun i => unnormalize P'.lower P'.upper (NA.turn (X i))) = _
    simp only [h.unnorm]
    exact h.prob.pop _
  one x := by
    show P'.obj.one (unnormalize P'.lower P'.upper (NA.turn x)) = _
    rw [h.unnorm]
    exact h.prob.one _
  ftol := h.prob.ftol
  dist a b := by rw [h.xtol]; exact distLe_mirror (fun _ => 1) a b P.xtol

theorem Reflected.step (h : Reflected t T P P') (it : Nat) (s : State σ K p n) :
    step P' it (s.reflect t T) = (step P it s).map fun r => (r.1.reflect t T, r.2) := by
  unfold NA.step
  simp only [map_bind_ex]
  have e : mutation P'.R P'.argsort (spanMask P'.lower P'.upper) (s.reflect t T).All p P'.nr (s.reflect t T).rng =
      (mutation P.R P.argsort (spanMask P.lower P.upper) s.All p P.nr s.rng).map fun r => (fun i => NA.turn (r.1 i), T r.2) := by
    have hm : spanMask P'.lower P'.upper = spanMask P.lower P.upper := funext fun j => by rw [h.mask.1, h.mask.2]
    rw [hm, h.R, h.srt, h.nr]
    exact mutation_turn h.rand P.argsort h.mask.1 s.All p P.nr s.rng
  rw [e, bind_map_ex]
  congr 1
  funext X
  dsimp only [State.reflect]
  have hs := selectionSync_map (ψ := NA.turn) h.objN it X.1 s.gbest s.pbest s.pbestfit P'.maxiter
  rw [hs, bind_map_ex, h.maxiter]
  congr 1
  funext r
  show Except.ok _ = Except.ok _
  congr 1
  refine Prod.ext ?_ rfl
  show State.mk _ _ _ _ _ _ _ _ _ _ = State.mk _ _ _ _ _ _ _ _ _ _
  congr 1
  · rw [List.map_append, List.map_ofFn]; rfl
  · simp only [h.unnorm, List.map_append, List.map_ofFn]; rfl

theorem Reflected.sim (h : Reflected t T P P') :
    (alg P : Alg (State σ K p n) K p n).Sim (alg P') (State.reflect t T) (fun v => v) NA.turn (mirror t) where
  step it s := h.step it s
  post _ _ := rfl
  cbX s := funext fun i => h.unnorm _
  best s := h.unnorm _
  bestFun _ := rfl
  rec0X _ := rfl
  rec0Best _ := rfl
  recX _ := funext fun i => h.unnorm _
  pfit _ := rfl

theorem Reflected.run (h : Reflected t T P P') (c : Cfg) (fuel : Nat) (x : Pop K p n) (g : σ) :
    na P' c fuel (some fun i => mirror t (x i)) (T g) =
      (na P c fuel (some x) g).map fun o => { o.map (fun v => v) NA.turn (mirror t) with rng := T o.rng } := by
  unfold na
  simp only [map_bind_ex]
  have hpop : ∀ X : Pop K p n, P'.objN.pop (fun i => NA.turn (X i)) = P.objN.pop X := fun X => h.objN.pop X
  have hi : init P' (some fun i => mirror t (x i)) (T g) = (init P (some x) g).map (State.reflect t T) := by
    unfold init
    simp only [map_bind_ex, h.norm, hpop]
    congr 1
    funext idx
    show Except.ok _ = Except.ok _
    congr 1
    show State.mk _ _ _ _ _ _ _ _ _ _ = State.mk _ _ _ _ _ _ _ _ _ _
    congr 1
    · rw [List.map_ofFn]; rfl
    · simp only [h.unnorm, List.map_ofFn]; rfl
  rw [hi, bind_map_ex]
  congr 1
  funext s0
  rw [h.sim.run rising_id, bind_map_ex]
  rfl

end NA
end Stochopy
