import Verif.Lemmas.EvoChain
import Verif.Lemmas.EvoStop
import Verif.Spec.CMA

/-! The stopping rules of `cmaes` and `vdcma` along a run. -/

set_option linter.unusedSectionVars false

namespace Stochopy.Evo
open Spec

section
variable {K σ S : Type} [Field K] [LinearOrder K] [NumFns K] [FloorRing K] {p n : Nat}
  {P : Par K n} {G : Gauss S K p n} {c : Cfg} {rng : S → σ} {fuel : Nat} {s0 : S} {o : Output σ K p n}

theorem loop_it : ∀ (fuel : Nat) (L : St S K p n) (r), loop P G c fuel L = .ok r → L.it < r.1.it ∧ r.2.status.isSome = true := by
  intro fuel
  induction fuel with
  | zero => intro L r h; cases h
  | succ k ih =>
    intro L r h
    rw [loop, bind_ok_iff] at h
    obtain ⟨r1, h1, h⟩ := h
    have hit := (evals_step h1).2
    by_cases hs : r1.2.status.isSome = true
    · rw [if_pos hs] at h; cases h; exact ⟨by omega, hs⟩
    · rw [if_neg hs] at h
      obtain ⟨h2, h3⟩ := ih _ _ h
      exact ⟨by omega, h3⟩

/-- The statuses of the generations of a loop. -/
theorem loop_status : ∀ (fuel : Nat) (L : St S K p n) (r) (f : Nat → St S K p n) (g : Nat → Gen K p n) (N : Nat),
    loop P G c fuel L = .ok r → f 0 = L → r.1.it = L.it + N → (∀ k < N, body P G c (f k) = .ok (f (k + 1), g k)) →
    ∀ k < N, (g k).status = if k + 1 = N then r.2.status else none := by
  intro fuel
  induction fuel with
  | zero => intro L r f g N h; cases h
  | succ m ih =>
    intro L r f g N h h0 hN hf k hk
    rw [loop, bind_ok_iff] at h
    obtain ⟨r1, h1, h⟩ := h
    have hit := (evals_step h1).2
    have hr1 : r1 = (f 1, g 0) := by
      have := hf 0 (by omega)
      rw [h0, h1] at this
      exact Except.ok.inj this
    by_cases hs : r1.2.status.isSome = true
    · rw [if_pos hs] at h
      cases h
      have hN1 : N = 1 := by omega
      subst hN1
      obtain rfl : k = 0 := by omega
      rw [if_pos rfl, hr1]
    · rw [if_neg hs] at h
      have hlt := (loop_it _ _ _ h).1
      have key := ih r1.1 r (fun k => f (k + 1)) (fun k => g (k + 1)) (N - 1) h (by rw [hr1]) (by omega)
        (fun k hk => hf (k + 1) (by omega))
      cases k with
      | zero =>
        rw [if_neg (by omega)]
        have : (g 0).status = r1.2.status := by rw [hr1]
        rw [this]
        simpa using hs
      | succ k =>
        have := key k (by omega)
        rw [this]
        exact if_congr (by omega) rfl rfl

theorem run_status (h : run P G c rng fuel s0 = .ok o) {f : Nat → St S K p n} {g : Nat → Gen K p n} (h0 : f 0 = init c s0)
    (hf : ∀ k < o.res.nit, body P G c (f k) = .ok (f (k + 1), g k)) :
    ∀ k < o.res.nit, (g k).status = if k + 1 = o.res.nit then some o.res.status else none := by
  unfold run at h
  by_cases hm : c.maxiter < 0
  · rw [if_pos hm] at h; cases h
  rw [if_neg hm, bind_ok_iff] at h
  obtain ⟨r, h1, h⟩ := h
  rw [bind_ok_iff] at h
  obtain ⟨res, h2, h⟩ := h
  cases h
  unfold finish at h2
  have hs := (loop_it _ _ _ h1).2
  obtain ⟨st, hst⟩ := Option.isSome_iff_exists.1 hs
  rw [hst] at h2
  dsimp only at h2
  cases hmsg : messages st with
  | none => rw [hmsg] at h2; cases h2
  | some msg =>
    rw [hmsg] at h2
    cases h2
    have key := loop_status fuel _ r f g r.1.it h1 h0 (by show _ = 0 + _; omega) hf
    rw [hst] at key
    exact key

/-- The array of best values. -/
theorem chain_arbest {f : Nat → St S K p n} {g : Nat → Gen K p n} {N : Nat} (h0 : f 0 = init c s0)
    (hf : ∀ k < N, body P G c (f k) = .ok (f (k + 1), g k)) :
    ∀ k ≤ N, (f k).it = k ∧ (f k).arbest.length = c.maxiter.toNat ∧
      ∀ i < c.maxiter.toNat, (f k).arbest[i]? = some (if i < k then (g i).fit (g i).best else .fin 0) := by
  intro k
  induction k with
  | zero =>
    intro _
    rw [h0]
    refine ⟨rfl, by simp [init], fun i hi => ?_⟩
    rw [if_neg (by omega)]
    simp [init, hi]
  | succ k ih =>
    intro hk
    obtain ⟨i1, i2, i3⟩ := ih (by omega)
    obtain ⟨hp, a, e, rows, s, -, -, -, -, -, -, hr⟩ := body_ok (hf k (by omega))
    have ha : (f (k + 1)).arbest = (f k).arbest.set (f k).it ((g k).fit (g k).best) := by
      have e1 := congrArg (fun r => r.1.arbest) hr
      have e2 := congrArg (fun r => r.2.fit) hr
      have e3 := congrArg (fun r => r.2.best) hr
      dsimp only at e1 e2 e3
      rw [e1, e2, e3]; rfl
    have hi : (f (k + 1)).it = (f k).it + 1 := congrArg (fun r => r.1.it) hr
    refine ⟨by omega, by rw [ha, List.length_set, i2], fun i hi => ?_⟩
    rw [ha, i1, List.getElem?_set]
    by_cases hik : k = i
    · rw [if_pos hik, if_pos (by omega), if_pos (by omega), hik]
    · rw [if_neg hik, i3 i hi]
      congr 1
      exact if_congr (by omega) rfl rfl

end

section
variable {K : Type} [Field K] [LinearOrder K] [IsStrictOrderedRing K]

theorem npMax_fin (a b : K) : npMax (.fin a : Val K) (.fin b) = .fin (max a b) := by
  unfold npMax
  rw [if_neg (by simp [Val.isNan]), if_neg (by simp [Val.isNan])]
  by_cases h : a < b
  · rw [if_pos (show (Val.fin a : Val K) < .fin b from h), max_eq_right h.le]
  · rw [if_neg (show ¬ (Val.fin a : Val K) < .fin b from h), max_eq_left (not_lt.1 h)]

theorem npMin_fin (a b : K) : npMin (.fin a : Val K) (.fin b) = .fin (min a b) := by
  unfold npMin
  rw [if_neg (by simp [Val.isNan]), if_neg (by simp [Val.isNan])]
  by_cases h : b < a
  · rw [if_pos (show (Val.fin b : Val K) < .fin a from h), min_eq_right h.le]
  · rw [if_neg (show ¬ (Val.fin b : Val K) < .fin a from h), min_eq_left (not_lt.1 h)]

theorem foldl_npMax_fin : ∀ (t : List (Val K)) (v : K), (∀ x ∈ t, ∃ a, x = .fin a) →
    ∃ M, t.foldl npMax (.fin v) = .fin M ∧ (M = v ∨ .fin M ∈ t) := by
  intro t
  induction t with
  | nil => intro v _; exact ⟨v, rfl, Or.inl rfl⟩
  | cons y t ih =>
    intro v h
    obtain ⟨b, rfl⟩ := h y (by simp)
    obtain ⟨M, h1, h2⟩ := ih (max v b) fun x hx => h x (by simp [hx])
    refine ⟨M, by rw [List.foldl_cons, npMax_fin, h1], ?_⟩
    rcases h2 with h2 | h2
    · rcases max_choice v b with h3 | h3
      · exact Or.inl (h2.trans h3)
      · right; rw [h2, h3]; simp
    · right; simp [h2]

theorem foldl_npMin_fin : ∀ (t : List (Val K)) (v : K), (∀ x ∈ t, ∃ a, x = .fin a) →
    ∃ M, t.foldl npMin (.fin v) = .fin M ∧ (M = v ∨ .fin M ∈ t) := by
  intro t
  induction t with
  | nil => intro v _; exact ⟨v, rfl, Or.inl rfl⟩
  | cons y t ih =>
    intro v h
    obtain ⟨b, rfl⟩ := h y (by simp)
    obtain ⟨M, h1, h2⟩ := ih (min v b) fun x hx => h x (by simp [hx])
    refine ⟨M, by rw [List.foldl_cons, npMin_fin, h1], ?_⟩
    rcases h2 with h2 | h2
    · rcases min_choice v b with h3 | h3
      · exact Or.inl (h2.trans h3)
      · right; rw [h2, h3]; simp
    · right; simp [h2]

end

/-- The range of an array is below `e` if and only if its entries are numbers closer than `e` to each other. -/
theorem rangeLt_iff {l : List (Val ℝ)} (hl : l ≠ []) {e : ℝ} : rangeLt l e = true ↔ Spread {x | x ∈ l} e := by
  constructor
  · intro h x hx y hy
    exact rangeLt_spec h hx hy
  · intro h
    obtain ⟨v, t, rfl⟩ := List.exists_cons_of_ne_nil hl
    have hfin : ∀ x ∈ v :: t, ∃ a, x = .fin a := fun x hx => by
      obtain ⟨a, b, h1, -⟩ := h x hx x hx
      exact ⟨a, h1⟩
    obtain ⟨a, rfl⟩ := hfin v (by simp)
    obtain ⟨M, h1, h2⟩ := foldl_npMax_fin t a fun x hx => hfin x (by simp [hx])
    obtain ⟨m, h3, h4⟩ := foldl_npMin_fin t a fun x hx => hfin x (by simp [hx])
    have hM : Val.fin M ∈ Val.fin a :: t := by
      rcases h2 with h2 | h2
      · simp [h2]
      · simp [h2]
    have hm : Val.fin m ∈ Val.fin a :: t := by
      rcases h4 with h4 | h4
      · simp [h4]
      · simp [h4]
    obtain ⟨x, y, hx, hy, hlt⟩ := h _ hM _ hm
    cases hx
    cases hy
    show decide (t.foldl npMax (.fin a) - t.foldl npMin (.fin a) < .fin e) = true
    rw [decide_eq_true_eq, h1, h3]
    show M + -m < e
    rw [← sub_eq_add_neg]
    exact (le_abs_self _).trans_lt hlt

theorem spread_congr {S T : Set (Val ℝ)} {e : ℝ} (h : S = T) : Spread S e ↔ Spread T e := by rw [h]

theorem firstHolds_if {code : Int} {cond cond' : Prop} [Decidable cond] {l : List (Int × Prop)} {e : Option Int} (hc : cond ↔ cond')
    (h2 : ¬ cond → FirstHolds l e) : FirstHolds ((code, cond') :: l) (if cond then some code else e) := by
  by_cases h : cond
  · exact Or.inl ⟨hc.1 h, if_pos h⟩
  · rw [if_neg h]
    exact Or.inr ⟨mt hc.2 h, h2 h⟩

/-- `converge` applies the rules in order. -/
theorem converge_rules {p n : Nat} {maxiter : Int} {xtol : ℝ} {ftol : Val ℝ} {ilim : Nat} {sigma0 : ℝ} {d : StopData p n}
    {arbest : List (Val ℝ)} {diagC : Vec ℝ n} {axes : Option (Matrix (Fin n) (Fin n) ℝ × Vec ℝ n)} {B : Val ℝ}
    (hit : 1 ≤ d.it) (hn : 0 < n) (hB : B = d.best (d.it - 1)) (hs : 0 < d.sigma)
    (harb : arbest.length = maxiter.toNat)
    (harb' : ∀ i < maxiter.toNat, arbest[i]? = some (if i < d.it then d.best i else .fin 0))
    (hvar : ∀ j, d.var j = d.sigma ^ 2 * diagC j) (haxes : d.axes = axes.map fun x => fun i j => d.sigma * (x.1 i j * x.2 j))
    (horth : ∀ x, axes = some x → (∀ i, ∑ l, x.1 l i ^ 2 = 1) ∧ ∀ i, 0 ≤ x.2 i) :
    FirstHolds (stopRules maxiter xtol ftol ilim sigma0 d)
      (converge d.it maxiter d.new d.old arbest d.fit B d.sigma sigma0 ilim d.pc xtol ftol diagC axes) := by
  subst hB
  have hsq : ∀ j, Real.sqrt (d.var j) = d.sigma * Real.sqrt (diagC j) := fun j => by
    rw [hvar, Real.sqrt_mul (sq_nonneg _), Real.sqrt_sq hs.le]
  have hfn : ∀ j, NumFns.sqrt (diagC j) = Real.sqrt (diagC j) := fun _ => rfl
  have hlen : ∀ x, axes = some x → ∀ i, ∑ l, (d.sigma * (x.1 l i * x.2 i)) ^ 2 = (d.sigma * x.2 i) ^ 2 := fun x hx i => by
    have := (horth x hx).1 i
    calc ∑ l, (d.sigma * (x.1 l i * x.2 i)) ^ 2 = (d.sigma * x.2 i) ^ 2 * ∑ l, x.1 l i ^ 2 := by
          rw [Finset.mul_sum]; exact Finset.sum_congr rfl fun l _ => by ring
      _ = _ := by rw [this, mul_one]
  unfold converge stopRules
  dsimp only
  refine firstHolds_if Iff.rfl fun h1 => ?_
  have hmax : d.it < maxiter.toNat := by omega
  refine firstHolds_if ?_ fun h2 => ?_
  · have e : ∑ j, (d.old j - d.new j) ^ 2 = ∑ j, (d.new j - d.old j) ^ 2 := Finset.sum_congr rfl fun j _ => by ring
    unfold distLe
    show ((decide _ && decide _) && decide _) = true ↔ _
    rw [Bool.and_eq_true, Bool.and_eq_true, decide_eq_true_eq, decide_eq_true_eq, decide_eq_true_eq, e, and_assoc]
    refine and_congr_right fun hx => and_congr_left fun _ => ?_
    rw [Real.sqrt_le_left hx]
  refine firstHolds_if Iff.rfl fun h3 => ?_
  refine firstHolds_if ?_ fun h4 => ?_
  · cases axes with
    | none => rw [haxes]; simp
    | some x =>
      rw [haxes]
      dsimp only [Option.map]
      rw [dif_pos hn, decide_eq_true_eq]
      have e : ∀ (i j : Fin n), |1 / 10 * d.sigma * x.1 j i * x.2 i| = |d.sigma * (x.1 j i * x.2 i)| / 10 := fun i j => by
        rw [show 1 / 10 * d.sigma * x.1 j i * x.2 i = d.sigma * (x.1 j i * x.2 i) / 10 by ring, abs_div]
        norm_num
      constructor
      · intro h
        refine ⟨_, rfl, fun i hi j => ?_⟩
        obtain rfl : i = ⟨d.it % n, Nat.mod_lt _ hn⟩ := Fin.ext hi
        rw [← e]; exact h j
      · rintro ⟨M, hM, h⟩ j
        cases hM
        show |_| < _
        rw [e]; exact h _ rfl j
  refine firstHolds_if ?_ fun h5 => ?_
  · refine exists_congr fun j => ?_
    rw [hfn, hsq, show 1 / 5 * d.sigma * Real.sqrt (diagC j) = d.sigma * Real.sqrt (diagC j) / 5 by ring]
  refine firstHolds_if ?_ fun h6 => ?_
  · cases axes with
    | none => rw [haxes]; simp
    | some x =>
      rw [haxes]
      dsimp only [Option.map]
      rw [decide_eq_true_eq]
      have e : ∀ i j, 10 ^ 7 * x.2 j < x.2 i ↔ 10 ^ 14 * ∑ l, (d.sigma * (x.1 l j * x.2 j)) ^ 2 < ∑ l, (d.sigma * (x.1 l i * x.2 i)) ^ 2 := by
        intro i j
        rw [hlen x rfl, hlen x rfl]
        have h0 := (horth x rfl).2
        rw [show (10 : ℝ) ^ 14 * (d.sigma * x.2 j) ^ 2 = (d.sigma * (10 ^ 7 * x.2 j)) ^ 2 by ring,
          pow_lt_pow_iff_left₀ (mul_nonneg hs.le (mul_nonneg (by norm_num) (h0 j))) (mul_nonneg hs.le (h0 i)) (by norm_num),
          mul_lt_mul_iff_right₀ hs]
      constructor
      · rintro ⟨i, j, h⟩
        exact ⟨_, rfl, i, j, (e i j).1 h⟩
      · rintro ⟨M, hM, i, j, h⟩
        cases hM
        exact ⟨i, j, (e i j).2 h⟩
  have hget : ∀ i, i ≤ d.it → arbest[i]? = some (if i < d.it then d.best i else .fin 0) := fun i hi => harb' i (by omega)
  refine firstHolds_if ?_ fun h7 => ?_
  · refine and_congr_right fun hle => ?_
    have hset : {x | x ∈ (arbest.take (d.it + 1)).drop (d.it - ilim)} =
        insert (.fin 0) {x | ∃ k, d.it - ilim ≤ k ∧ k < d.it ∧ x = d.best k} := by
      ext x
      simp only [Set.mem_ofPred_eq, Set.mem_insert_iff]
      rw [List.mem_iff_getElem?]
      constructor
      · rintro ⟨i, hi⟩
        rw [List.getElem?_drop, List.getElem?_take] at hi
        by_cases hlt : d.it - ilim + i < d.it + 1
        · rw [if_pos hlt, hget _ (by omega)] at hi
          by_cases hk : d.it - ilim + i < d.it
          · rw [if_pos hk] at hi
            exact Or.inr ⟨_, by omega, hk, (Option.some.inj hi).symm⟩
          · rw [if_neg hk] at hi
            exact Or.inl (Option.some.inj hi).symm
        · rw [if_neg hlt] at hi; cases hi
      · rintro (rfl | ⟨k, h1, h2, rfl⟩)
        · refine ⟨ilim, ?_⟩
          rw [List.getElem?_drop, List.getElem?_take, if_pos (by omega), hget _ (by omega), if_neg (by omega)]
        · refine ⟨k - (d.it - ilim), ?_⟩
          rw [List.getElem?_drop, List.getElem?_take, if_pos (by omega), hget _ (by omega), if_pos (by omega)]
          congr 2
          omega
    have hne : (arbest.take (d.it + 1)).drop (d.it - ilim) ≠ [] := by
      intro h0
      have : (Val.fin 0 : Val ℝ) ∈ {x | x ∈ (arbest.take (d.it + 1)).drop (d.it - ilim)} := by rw [hset]; simp
      rw [h0] at this
      simp at this
    rw [rangeLt_iff hne, hset]
  refine firstHolds_if ?_ fun h8 => ?_
  · refine exists_congr fun j => ?_
    rw [hfn, hsq, show (10 : ℝ) ^ 3 = 1000 by norm_num]
  refine firstHolds_if ?_ fun h9 => ?_
  · refine and_congr Iff.rfl ?_
    have hset : {x | x ∈ List.ofFn d.fit ++ arbest} = insert (.fin 0) (Set.range d.fit ∪ {x | ∃ k < d.it, x = d.best k}) := by
      ext x
      simp only [Set.mem_ofPred_eq, Set.mem_insert_iff, List.mem_append, List.mem_ofFn, Set.mem_union, Set.mem_range]
      rw [List.mem_iff_getElem?]
      constructor
      · rintro (h | ⟨i, hi⟩)
        · exact Or.inr (Or.inl h)
        · have hi' : i < maxiter.toNat := by
            rw [← harb]
            exact (List.getElem?_eq_some_iff.1 hi).1
          rw [harb' i hi'] at hi
          by_cases hk : i < d.it
          · rw [if_pos hk] at hi
            exact Or.inr (Or.inr ⟨i, hk, (Option.some.inj hi).symm⟩)
          · rw [if_neg hk] at hi
            exact Or.inl (Option.some.inj hi).symm
      · rintro (rfl | h | ⟨k, hk, rfl⟩)
        · exact Or.inr ⟨d.it, by rw [hget _ (le_refl _), if_neg (lt_irrefl _)]⟩
        · exact Or.inl h
        · exact Or.inr ⟨k, by rw [hget _ hk.le, if_pos hk]⟩
    have hne : List.ofFn d.fit ++ arbest ≠ [] := by
      intro h0
      have : (Val.fin 0 : Val ℝ) ∈ {x | x ∈ List.ofFn d.fit ++ arbest} := by rw [hset]; simp
      rw [h0] at this
      simp at this
    rw [rangeLt_iff hne, hset]
  refine firstHolds_if ?_ fun _ => rfl
  rw [← forall_and]
  refine forall_congr' fun j => ?_
  rw [absv_eq, hfn, hsq, show 1 / 10 ^ 11 * sigma0 = sigma0 / 10 ^ 11 by ring]

end Stochopy.Evo

namespace Stochopy.Evo
open Spec
variable {σ S : Type} {p n : Nat} {P : Par ℝ n} {G : Gauss S ℝ p n} {c : Cfg} {rng : S → σ} {fuel : Nat} {s0 : S} {o : Output σ ℝ p n}

/-- What the rules look at in generation `k` (counted from 0). -/
def stopData (G : Gauss S ℝ p n) (f : Nat → St S ℝ p n) (g : Nat → Gen ℝ p n) (k : Nat) : StopData p n :=
  { it := k + 1
    old := G.old (f (k + 1)).s
    new := G.mean (f (k + 1)).s
    best := fun i => (g i).fit (g i).best
    fit := (g k).fit
    sigma := G.sigma (f (k + 1)).s
    pc := G.pc (f (k + 1)).s
    var := fun j => G.sigma (f (k + 1)).s ^ 2 * G.diagConv (f (k + 1)).s j
    axes := (G.axes (f (k + 1)).s).map fun x => fun i j => G.sigma (f (k + 1)).s * (x.1 i j * x.2 j) }

theorem run_rules (hn : 0 < n) (hsrt : IsArgsort P.srt) (h : run P G c rng fuel s0 = .ok o) {f : Nat → St S ℝ p n}
    {g : Nat → Gen ℝ p n} (h0 : f 0 = init c s0) (hf : ∀ k < o.res.nit, body P G c (f k) = .ok (f (k + 1), g k))
    (hsig : ∀ k < o.res.nit, 0 < G.sigma (f (k + 1)).s)
    (horth : ∀ k < o.res.nit, ∀ x, G.axes (f (k + 1)).s = some x → (∀ i, ∑ l, x.1 l i ^ 2 = 1) ∧ ∀ i, 0 ≤ x.2 i) :
    ∀ k < o.res.nit, IsBest (g k).fit ((g k).fit (g k).best) ∧
      FirstHolds (stopRules c.maxiter P.xtol P.ftol P.ilim P.insigma (stopData G f g k))
        (if k + 1 = o.res.nit then some o.res.status else none) := by
  intro k hk
  obtain ⟨hp, a, e, rows, s, -, -, -, -, -, -, hr⟩ := body_ok (hf k hk)
  have hgk : g k = (after P G c (f k) hp e rows s).2 := congrArg Prod.snd hr
  have hfk : f (k + 1) = (after P G c (f k) hp e rows s).1 := congrArg Prod.fst hr
  obtain ⟨-, harb, harb'⟩ := chain_arbest h0 hf (k + 1) (by omega)
  have hit : (f k).it = k := (chain_arbest h0 hf k (by omega)).1
  constructor
  · refine ⟨⟨_, rfl⟩, fun i => ?_⟩
    rw [hgk]
    show sortLe (e.1 (P.srt p e.1 ⟨0, hp⟩)) (e.1 i)
    have : P.srt p e.1 ((P.srt p e.1).symm i) = i := (P.srt p e.1).apply_symm_apply i
    have h2 := hsrt p e.1 ⟨0, hp⟩ ((P.srt p e.1).symm i) (Nat.zero_le _)
    rwa [this] at h2
  · rw [← run_status h h0 hf k hk]
    have hst : (g k).status = converge (k + 1) c.maxiter (G.mean (f (k + 1)).s) (G.old (f (k + 1)).s) (f (k + 1)).arbest (g k).fit
        ((g k).fit (g k).best) (G.sigma (f (k + 1)).s) P.insigma P.ilim (G.pc (f (k + 1)).s) P.xtol P.ftol (G.diagConv (f (k + 1)).s)
        (G.axes (f (k + 1)).s) := by
      rw [hgk, hfk]
      unfold after
      dsimp only
      rw [hit]
    rw [hst]
    exact converge_rules (d := stopData G f g k) (Nat.succ_le_succ (Nat.zero_le _)) hn rfl (hsig k hk) harb harb' (fun _ => rfl) rfl
      (horth k hk)

end Stochopy.Evo
