import Verif.Spec.Penalty
import Verif.Lemmas.EvoPen
import Verif.Lemmas.EvoChain
import Verif.Lemmas.EvoParams
import Mathlib.Data.List.FinRange

/-! `Penalize` as described in `Spec.Penalty`. -/

set_option linter.unusedSectionVars false

namespace Stochopy.Evo
open Spec Val
variable {K : Type} [Field K] [LinearOrder K] [IsStrictOrderedRing K]

section
variable {srt : Argsort K} {m : Nat} {v : Fin m → K}

/-- The sorted numbers. -/
def order (srt : Argsort K) (v : Fin m → K) : List K := List.ofFn fun k => v (srt m (fun i => .fin (v i)) k)

theorem order_perm : (order srt v).Perm (List.ofFn v) := by
  exact Equiv.Perm.ofFn_comp_perm (srt m fun i => .fin (v i)) v

theorem order_pairwise (hs : IsArgsort srt) : (order srt v).Pairwise (· ≤ ·) := by
  unfold order
  rw [List.pairwise_ofFn]
  intro i j hij
  have := hs m (fun i => .fin (v i)) i j hij.le
  rcases this with h | h
  · cases h
  · exact fin_le_fin.1 h

theorem order_get {k : Nat} (hk : k < m) :
    ∃ y, (order srt v)[k]? = some y ∧ sorted srt (fun i => (.fin (v i) : Val K)) k = .fin y := by
  refine ⟨v (srt m (fun i => .fin (v i)) ⟨k, hk⟩), ?_, sorted_lt hk⟩
  unfold order
  rw [List.getElem?_ofFn, dif_pos hk]

variable [FloorRing K]

theorem percentile_quantile (hs : IsArgsort srt) {q : K} (h0 : 0 ≤ q) (h1 : q < 1) (hm : 0 < m) :
    ∃ x, percentile srt (fun i => (.fin (v i) : Val K)) q = .fin x ∧ Quantile q (List.ofFn v) x := by
  obtain ⟨a1, a2, a3⟩ := quantile (K := K) h0 h1 hm
  unfold percentile
  rw [if_neg (by rintro ⟨i, hi⟩; cases hi)]
  dsimp only
  generalize ⌊q * ((m : K) - 1)⌋.toNat = i at *
  obtain ⟨y, hy, ey⟩ := order_get (srt := srt) (v := v) a3
  obtain ⟨z, hz, ez⟩ := order_get (srt := srt) (v := v) (k := min (i + 1) (m - 1)) (by omega)
  rw [ey, ez, lerp_fin]
  refine ⟨_, rfl, order srt v, i, q * ((m : K) - 1) - i, y, z, order_perm, order_pairwise hs, by linarith, by linarith, ?_, hy, ?_, by ring⟩
  · rw [List.length_ofFn]; ring
  · by_cases h : i + 1 < m
    · left; rwa [show min (i + 1) (m - 1) = i + 1 by omega] at hz
    · right
      have hi : (i : K) = (m : K) - 1 := by
        have : i + 1 = m := by omega
        rw [← this]; push_cast; ring
      have hnn : (0 : K) ≤ (m : K) - 1 := by rw [← hi]; positivity
      nlinarith
end

theorem median_quantile {srt : Argsort K} (hs : IsArgsort srt) {l : List K} (hl : l ≠ []) :
    ∃ x, median srt (l.map .fin) = .fin x ∧ Quantile (1 / 2) l x := by
  have hlen : 0 < l.length := List.length_pos_iff.2 hl
  have hm : (l.map (.fin : K → Val K)).length = l.length := List.length_map _
  have hg : (l.map (.fin : K → Val K)).get = fun i => .fin (l[i.val]'(by have := i.2; omega)) := by
    funext i; simp
  have hp : (order srt fun i : Fin (l.map (.fin : K → Val K)).length => l[i.val]'(by have := i.2; omega)).Perm l := by
    refine order_perm.trans ?_
    refine List.Perm.of_eq (List.ext_getElem (by simp) fun k h1 h2 => by simp)
  have hw := order_pairwise (v := fun i : Fin (l.map (.fin : K → Val K)).length => l[i.val]'(by have := i.2; omega)) hs
  unfold median
  rw [if_neg (by rw [List.any_eq_true]; rintro ⟨d, hd, hdn⟩; obtain ⟨k, -, rfl⟩ := List.mem_map.1 hd; cases hdn), hg]
  by_cases h1 : (l.map (.fin : K → Val K)).length % 2 = 1
  · rw [if_pos h1]
    obtain ⟨y, hy, ey⟩ := order_get (srt := srt) (v := fun i : Fin (l.map (.fin : K → Val K)).length => l[i.val]'(by have := i.2; omega))
      (k := (l.map (.fin : K → Val K)).length / 2) (by omega)
    refine ⟨y, ey, _, (l.map (.fin : K → Val K)).length / 2, 0, y, 0, hp, hw, le_refl _, one_pos, ?_, hy, .inr rfl, by ring⟩
    have : ((2 * ((l.map (.fin : K → Val K)).length / 2) + 1 : Nat) : K) = l.length := congrArg _ (by omega)
    push_cast at this
    linarith
  · rw [if_neg h1]
    obtain ⟨y, hy, ey⟩ := order_get (srt := srt) (v := fun i : Fin (l.map (.fin : K → Val K)).length => l[i.val]'(by have := i.2; omega))
      (k := (l.map (.fin : K → Val K)).length / 2 - 1) (by omega)
    obtain ⟨z, hz, ez⟩ := order_get (srt := srt) (v := fun i : Fin (l.map (.fin : K → Val K)).length => l[i.val]'(by have := i.2; omega))
      (k := (l.map (.fin : K → Val K)).length / 2) (by omega)
    rw [ey, ez, fin_add', divBy_fin' (by norm_num)]
    refine ⟨_, rfl, _, (l.map (.fin : K → Val K)).length / 2 - 1, 1 / 2, y, z, hp, hw, by norm_num, by norm_num, ?_, hy, .inl ?_, by ring⟩
    · have : ((2 * ((l.map (.fin : K → Val K)).length / 2 - 1) + 2 : Nat) : K) = l.length := congrArg _ (by omega)
      push_cast at this
      linarith
    · rwa [show (l.map (.fin : K → Val K)).length / 2 - 1 + 1 = (l.map (.fin : K → Val K)).length / 2 by omega]

/-- The smallest entry. -/
theorem npMinList_fin {l : List K} (hl : l ≠ []) : ∃ d, npMinList (l.map .fin) = .ok (.fin d) ∧ d ∈ l ∧ ∀ x ∈ l, d ≤ x := by
  cases l with
  | nil => exact absurd rfl hl
  | cons v t =>
    unfold npMinList
    show ∃ d, Except.ok ((t.map .fin).foldl npMin (.fin v)) = Except.ok (.fin d) ∧ _
    clear hl
    induction t generalizing v with
    | nil => exact ⟨v, rfl, by simp, by simp⟩
    | cons a t ih =>
      have : npMin (.fin v : Val K) (.fin a) = .fin (min v a) := by
        unfold npMin
        rw [if_neg (by simp [Val.isNan]), if_neg (by simp [Val.isNan])]
        rcases lt_or_ge a v with h | h
        · rw [if_pos (fin_lt_fin.2 h), min_eq_right h.le]
        · rw [if_neg (by rw [fin_lt_fin]; exact not_lt.2 h), min_eq_left h]
      obtain ⟨d, h1, h2, h3⟩ := ih (min v a)
      refine ⟨d, by rw [List.map_cons, List.foldl_cons, this]; exact h1, ?_, fun x hx => ?_⟩
      · rcases List.mem_cons.1 h2 with rfl | h2
        · rcases min_choice v a with h | h <;> rw [h] <;> simp
        · simp [h2]
      · have h4 := h3 (min v a) (by simp)
        rcases List.mem_cons.1 hx with rfl | hx
        · exact h4.trans (min_le_left _ _)
        · rcases List.mem_cons.1 hx with rfl | hx
          · exact h4.trans (min_le_right _ _)
          · exact h3 x (by simp [hx])

theorem positiveMin_fin {l : List K} (hl : l ≠ []) (hpos : ∀ x ∈ l, 0 < x) :
    ∃ d, positiveMin (l.map .fin) = .ok (.fin d) ∧ d ∈ l ∧ ∀ x ∈ l, d ≤ x := by
  have : ((l.map (.fin : K → Val K)).filter fun d => decide (.fin 0 < d)) = l.map .fin := by
    rw [List.filter_eq_self]
    intro d hd
    obtain ⟨k, hk, rfl⟩ := List.mem_map.1 hd
    exact decide_eq_true (fin_lt_fin.2 (hpos k hk))
  unfold positiveMin
  rw [this]
  exact npMinList_fin hl

section
variable {n p : Nat}

/-- The model's variables hold the memory `s`. -/
structure Rep (pen : Pen K n) (s : PenaltyMemory K n) : Prop where
  hist : pen.hist = s.ranges.map .fin
  valid : pen.valid = !s.flat
  w : ∀ j, pen.w j = .fin (s.w j)
  ini : pen.ini = s.setting
  nonempty : s.ranges ≠ []
  positive : ∀ x ∈ s.ranges, 0 < x

theorem rep_start : Rep (Pen.start n : Pen K n) (PenaltyMemory.start n) where
  hist := rfl
  valid := rfl
  w _ := rfl
  ini := rfl
  nonempty := by simp [PenaltyMemory.start]
  positive x hx := by
    have : x = 1 := by simpa [PenaltyMemory.start] using hx
    rw [this]; exact one_pos

theorem push_map (base : List K) (d : K) :
    ∃ cut, push n p (base.map .fin) (.fin d) = ((base ++ [d]).drop cut).map .fin ∧ cut ≤ 1 ∧
      (cut = 1 ↔ 20 + 3 * (n : K) / (p : K) ≤ (base.length : K)) := by
  unfold push
  rw [List.length_map]
  by_cases h : (base.length : K) < 20 + 3 * (n : K) / (p : K)
  · rw [if_pos h]
    exact ⟨0, by simp, by omega, ⟨fun h0 => by omega, fun h0 => absurd h (not_lt.2 h0)⟩⟩
  · rw [if_neg h]
    refine ⟨1, ?_, le_refl _, ⟨fun _ => not_lt.1 h, fun _ => rfl⟩⟩
    cases base with
    | nil =>
      exfalso
      apply h
      have : (0 : K) ≤ 3 * (n : K) / (p : K) := by positivity
      simp only [List.length_nil, Nat.cast_zero]
      linarith
    | cons a t => simp

theorem nearest_clip (x : Vec K n) : clip x = nearest x := by
  funext j
  unfold clip nearest
  split_ifs with h1 h2
  · rw [min_eq_right (by linarith), max_eq_left h1.le]
  · rw [min_eq_left h2.le, max_eq_right (by linarith)]
  · rw [min_eq_right (not_lt.1 h2), max_eq_right (not_lt.1 h1)]

variable [NumFns K]

theorem mueff_mass (mu : Nat) : (mueff mu : K) = selectionMass mu := by
  unfold mueff selectionMass weights
  simp only [ArrayOps.sum_eq]
  set S := ∑ i, rawWeight (K := K) mu i with hS
  have e1 : ∑ k, rawWeight (K := K) mu k / S = S / S := by rw [← Finset.sum_div]
  have e2 : ∑ k, (rawWeight (K := K) mu k / S) ^ 2 = (∑ k, rawWeight (K := K) mu k ^ 2) / S ^ 2 := by
    rw [Finset.sum_div]; exact Finset.sum_congr rfl fun k _ => div_pow _ _ _
  rw [e1, e2]
  change _ = S ^ 2 / ∑ k, rawWeight (K := K) mu k ^ 2
  by_cases h0 : S = 0
  · rw [h0]; simp
  · rw [div_self h0, one_pow, one_div, inv_div]

variable [LawfulNumFns K] [FloorRing K]

theorem boundary_penalty {w : Vec (Val K) n} {u : Vec K n} (hw : ∀ j, w j = .fin (u j)) (diagC x : Vec K n) :
    penalty diagC w (clip x) x = .fin (boundaryPenalty u diagC x) := by
  have : (fun j => (.fin ((clip x j - x j) ^ 2) * Val.divBy (w j) (bndScale diagC j) : Val K)) =
      fun j => .fin ((clip x j - x j) ^ 2 * (u j / bndScale diagC j)) := by
    funext j
    rw [hw j, divBy_fin' (bndScale_pos diagC j).ne', fin_mul']
  unfold penalty
  rw [this, vsum_fin]
  unfold boundaryPenalty
  congr 1
  refine Finset.sum_congr rfl fun j _ => ?_
  rw [nearest_clip]
  show _ = u j / bndScale diagC j * _
  ring

/-- The condition for increasing a weight. -/
theorem grows_iff {xmean xold : Vec K n} {sigma : K} {diagC : Vec K n} {me : K} (hs : 0 < sigma) {j : Fin n} (hd : 0 < diagC j) :
    (decide (∃ j, outside xmean j = true) && outside xmean j &&
        decide (3 * max 1 (NumFns.sqrt ((n : K) / me)) * sigma * NumFns.sqrt (diagC j) < absv (overshoot xmean j)) &&
        decide (sgn (overshoot xmean j) = sgn (xmean j - xold j))) = true ↔
      1 + 3 * max 1 (NumFns.sqrt ((n : K) / me)) * sigma * NumFns.sqrt (diagC j) < xmean j ∧ xold j < xmean j := by
  have hq : 0 ≤ 3 * max 1 (NumFns.sqrt ((n : K) / me)) * sigma * NumFns.sqrt (diagC j) := by
    have h1 : (0 : K) ≤ max 1 (NumFns.sqrt ((n : K) / me)) := zero_le_one.trans (le_max_left _ _)
    have h2 := LawfulNumFns.sqrt_pos _ hd
    positivity
  generalize 3 * max 1 (NumFns.sqrt ((n : K) / me)) * sigma * NumFns.sqrt (diagC j) = q at *
  simp only [Bool.and_eq_true, decide_eq_true_iff]
  by_cases hx : 1 < xmean j
  · have ho : overshoot xmean j = xmean j - 1 := by unfold overshoot; rw [if_pos hx]
    have hout : outside xmean j = true := by unfold outside; rw [decide_eq_true hx, Bool.or_true]
    have hpos : 0 < xmean j - 1 := sub_pos.2 hx
    have hsg : sgn (xmean j - 1) = 1 := if_pos hpos
    have hsg' : (1 : Int) = sgn (xmean j - xold j) ↔ xold j < xmean j := by
      unfold sgn
      split_ifs with h1 h2
      · exact ⟨fun _ => sub_pos.1 h1, fun _ => rfl⟩
      · exact ⟨fun h => absurd h (by decide), fun h => absurd (sub_pos.2 h) h1⟩
      · exact ⟨fun h => absurd h (by decide), fun h => absurd (sub_pos.2 h) h1⟩
    rw [ho, absv_eq, abs_of_pos hpos, hsg, hsg']
    constructor
    · rintro ⟨⟨-, h⟩, h'⟩; exact ⟨by linarith, h'⟩
    · rintro ⟨h, h'⟩; exact ⟨⟨⟨⟨j, hout⟩, hout⟩, by linarith⟩, h'⟩
  · have ho : overshoot xmean j = 0 := by unfold overshoot; rw [if_neg hx, sub_self]
    rw [ho, absv_eq, abs_zero]
    constructor
    · rintro ⟨⟨-, h⟩, -⟩; linarith
    · rintro ⟨h, -⟩; linarith

theorem left_iff {m : Vec K n} : decide (∃ j, outside m j = true) = true ↔ Left m := by
  rw [decide_eq_true_iff]
  unfold Left outside
  simp only [Bool.or_eq_true, decide_eq_true_iff]

variable {srt : Argsort K}

theorem history_step (hs : IsArgsort srt) {f : Fin p → K} {sigma : K} {diagC : Vec K n} {pen : Pen K n} {s : PenaltyMemory K n}
    (hn : 0 < n) (hp : 0 < p) (hsi : 0 < sigma) (hd : ∀ j, 0 < diagC j) (hR : Rep pen s) {h}
    (hh : history srt (fun i => .fin (f i)) sigma diagC pen = .ok h) :
    ∃ (l : List K) (flat : Bool), h.1 = l.map .fin ∧ h.2 = !flat ∧ l ≠ [] ∧ (∀ x ∈ l, 0 < x) ∧
      ∃ q1 q3 d : K, Quantile (1 / 4) (List.ofFn f) q1 ∧ Quantile (3 / 4) (List.ofFn f) q3 ∧
        ∃ base : List K,
          ((q3 = q1 ∧ d ∈ s.ranges ∧ (∀ x ∈ s.ranges, d ≤ x) ∧ base = s.ranges ∧ flat = s.flat) ∨
            (q1 < q3 ∧ d = (q3 - q1) / (sigma ^ 2 * ∑ j, diagC j) ∧ (base = if s.flat then [] else s.ranges) ∧ flat = false)) ∧
          ∃ cut, l = (base ++ [d]).drop cut ∧ cut ≤ 1 ∧ (cut = 1 ↔ 20 + 3 * (n : K) / (p : K) ≤ (base.length : K)) := by
  have hn' : (0 : K) < n := by exact_mod_cast hn
  have hsum : 0 < ∑ j, diagC j := Finset.sum_pos (fun j _ => hd j) ⟨⟨0, hn⟩, Finset.mem_univ _⟩
  obtain ⟨q1, e1, hq1⟩ := percentile_quantile (v := f) hs (q := 1 / 4) (by norm_num) (by norm_num) hp
  obtain ⟨q3, e3, hq3⟩ := percentile_quantile (v := f) hs (q := 3 / 4) (by norm_num) (by norm_num) hp
  have hle : q1 ≤ q3 := by
    have := nn_percentiles (srt := srt) (v := fun i => (.fin (f i) : Val K)) hs hp
    rw [e1, e3, fin_sub', nn_fin] at this
    linarith
  have hr : fitRange srt (fun i => (.fin (f i) : Val K)) sigma diagC = .fin ((q3 - q1) / (sigma ^ 2 * ∑ j, diagC j)) := by
    unfold fitRange
    rw [ArrayOps.sum_eq, e1, e3, fin_sub', divBy_fin' hn'.ne', divBy_fin' (by positivity), divBy_fin' (by positivity)]
    congr 1
    field_simp
  have hden : 0 < sigma ^ 2 * ∑ j, diagC j := by positivity
  unfold history at hh
  dsimp only at hh
  rw [hr] at hh
  have key : ∀ (base : List K) (d : K), (∀ x ∈ base, 0 < x) → 0 < d → ∀ cut, cut ≤ 1 →
      (cut = 1 ↔ 20 + 3 * (n : K) / (p : K) ≤ (base.length : K)) →
      (base ++ [d]).drop cut ≠ [] ∧ ∀ x ∈ (base ++ [d]).drop cut, 0 < x := by
    intro base d hb hd cut hc hcut
    refine ⟨fun h0 => ?_, fun x hx => ?_⟩
    · have h1 := congrArg List.length h0
      rw [List.length_drop, List.length_append, List.length_singleton, List.length_nil] at h1
      have h2 : cut = 1 := by omega
      have h3 := hcut.1 h2
      have h4 : base.length = 0 := by omega
      have : (0 : K) ≤ 3 * (n : K) / (p : K) := by positivity
      rw [h4, Nat.cast_zero] at h3
      linarith
    · rcases List.mem_append.1 (List.mem_of_mem_drop hx) with h | h
      · exact hb x h
      · have : x = d := by simpa using h
        rw [this]; exact hd
  by_cases hz : q3 = q1
  · rw [if_pos (by rw [hz, sub_self, zero_div])] at hh
    obtain ⟨d, hd1, hd2, hd3⟩ := positiveMin_fin hR.nonempty hR.positive
    rw [hR.hist, hd1] at hh
    cases hh
    obtain ⟨cut, hc1, hc2, hc3⟩ := push_map (n := n) (p := p) s.ranges d
    obtain ⟨k1, k2⟩ := key s.ranges d hR.positive (hR.positive d hd2) cut hc2 hc3
    exact ⟨_, s.flat, hc1, hR.valid, k1, k2, q1, q3, d, hq1, hq3, s.ranges, .inl ⟨hz, hd2, hd3, rfl, rfl⟩, cut, rfl, hc2, hc3⟩
  · have hlt : q1 < q3 := lt_of_le_of_ne hle (Ne.symm hz)
    have hdp : 0 < (q3 - q1) / (sigma ^ 2 * ∑ j, diagC j) := div_pos (sub_pos.2 hlt) hden
    rw [if_neg (by intro h0; exact hdp.ne' (Val.fin.inj h0))] at hh
    cases hh
    have hb : (if pen.valid = true then pen.hist else []) = (if s.flat then [] else s.ranges).map .fin := by
      rw [hR.valid, hR.hist]
      cases s.flat <;> rfl
    rw [hb]
    obtain ⟨cut, hc1, hc2, hc3⟩ := push_map (n := n) (p := p) (if s.flat then [] else s.ranges)
      ((q3 - q1) / (sigma ^ 2 * ∑ j, diagC j))
    obtain ⟨k1, k2⟩ := key (if s.flat then [] else s.ranges) _ (by
      intro x hx
      split_ifs at hx
      · simp at hx
      · exact hR.positive x hx) hdp cut hc2 hc3
    exact ⟨_, false, hc1, rfl, k1, k2, q1, q3, _, hq1, hq3, _, .inr ⟨hlt, rfl, rfl, rfl⟩, cut, rfl, hc2, hc3⟩

/-- A call of `Penalize` is a `PenaltyStep`. -/
theorem penalize_step (hs : IsArgsort srt) {fit : Pop K p n → Fin p → Val K} {f : Fin p → K} {arx : Pop K p n} {xmean xold : Vec K n}
    {sigma : K} {diagC : Vec K n} {mu it : Nat} {pen : Pen K n} {r : (Fin p → Val K) × Pop K p n × Pen K n} {s : PenaltyMemory K n}
    (hR : Rep pen s) (h : penalize srt fit arx xmean xold sigma diagC (mueff mu) it pen = .ok r)
    (hfit : fit r.2.1 = fun i => .fin (f i)) :
    ∃ s', Rep r.2.2 s' ∧ PenaltyStep mu it xmean xold sigma diagC f s s' ∧ (∀ i, r.2.1 i = nearest (arx i)) ∧
      ∀ i, r.1 i = .fin (f i + boundaryPenalty s'.w diagC (arx i)) := by
  classical
  obtain ⟨hist, ⟨hn, hp, hsi, hme, hd⟩, h2, h3, h4, h5⟩ := penalize_ok h
  rw [h3] at hfit
  rw [hfit] at h2
  obtain ⟨l, flat, el, ef, hl, hpos, hq⟩ := history_step hs hn hp hsi hd hR h2
  obtain ⟨md, emd, hmd⟩ := median_quantile hs hl
  rw [mueff_mass] at h4
  obtain ⟨hist1, hist2⟩ := hist
  dsimp only at el ef h4
  subst el ef
  set W := weightsUpdate srt xmean xold sigma diagC (selectionMass mu) it (l.map .fin) (!flat) pen with hW
  let w0 : Vec K n := fun j => if s.setting = true ∧ Left xmean then 20002 / 10000 * md else s.w j
  let cond : Fin n → Prop := fun j => 1 + 3 * max 1 (NumFns.sqrt ((n : K) / selectionMass mu)) * sigma * NumFns.sqrt (diagC j) < xmean j ∧
    xold j < xmean j
  let w1 : Vec K n := fun j => if cond j then w0 j * NumFns.pow (6 / 5) (min 1 (selectionMass mu / 10 / (n : K))) else w0 j
  have hw0 : ∀ j, (if (pen.ini && decide (∃ j, outside xmean j = true)) = true then (fun _ => .fin (20002 / 10000) * median srt (l.map .fin))
      else pen.w : Vec (Val K) n) j = .fin (w0 j) := by
    intro j
    show _ = Val.fin (if s.setting = true ∧ Left xmean then 20002 / 10000 * md else s.w j)
    by_cases hc : s.setting = true ∧ Left xmean
    · rw [if_pos hc, if_pos (by rw [Bool.and_eq_true, left_iff, hR.ini]; exact hc), emd, fin_mul']
    · rw [if_neg hc, if_neg (by rw [Bool.and_eq_true, left_iff, hR.ini]; exact hc), hR.w]
  have hw1 : ∀ j, W.1 j = .fin (w1 j) := by
    intro j
    rw [hW]
    unfold weightsUpdate
    dsimp only
    show _ = Val.fin (if cond j then w0 j * NumFns.pow (6 / 5) (min 1 (selectionMass mu / 10 / (n : K))) else w0 j)
    by_cases hc : cond j
    · rw [if_pos ((grows_iff hsi (hd j)).2 hc), if_pos hc, hw0 j, fin_mul']; rfl
    · rw [if_neg (fun h0 => hc ((grows_iff hsi (hd j)).1 h0)), if_neg hc, hw0 j]
  have hset : W.2 = true ↔ s.setting = true ∧ ¬ (Left xmean ∧ flat = false ∧ 3 ≤ it) := by
    rw [hW]
    unfold weightsUpdate
    dsimp only
    rw [hR.ini]
    have hc : (s.setting && decide (∃ j, outside xmean j = true) && !flat && decide (2 < it)) = true ↔
        s.setting = true ∧ Left xmean ∧ flat = false ∧ 3 ≤ it := by
      rw [Bool.and_eq_true, Bool.and_eq_true, Bool.and_eq_true, left_iff, Bool.not_eq_true', decide_eq_true_iff, and_assoc, and_assoc]
      rfl
    by_cases h0 : s.setting = true ∧ Left xmean ∧ flat = false ∧ 3 ≤ it
    · rw [if_pos (hc.2 h0)]
      exact ⟨fun h => absurd h (by decide), fun h => absurd h0.2 h.2⟩
    · rw [if_neg (fun h => h0 (hc.1 h))]
      exact ⟨fun h => ⟨h, fun h' => h0 ⟨h, h'⟩⟩, fun h => h.1⟩
  refine ⟨{ ranges := l, flat := flat, w := w1, setting := W.2 }, ?_, ⟨hq, ⟨w0, fun hc => ⟨md, hmd, fun j => if_pos hc⟩,
    fun hc => funext fun j => if_neg hc, fun j => ⟨fun hc => if_pos hc, fun hc => if_neg hc⟩⟩, hset⟩, fun i => ?_, fun i => ?_⟩
  · rw [h4]
    exact ⟨rfl, rfl, hw1, rfl, hl, hpos⟩
  · rw [h3]; exact nearest_clip _
  · rw [h5, hfit, boundary_penalty (u := w1) (by rw [h4]; exact hw1), fin_add']

/-- The memory held by the model's variables. -/
def decode (pen : Pen K n) : PenaltyMemory K n :=
  let num : Val K → K := fun v => match v with | .fin k => k | _ => 0
  { ranges := pen.hist.map num, flat := !pen.valid, w := fun j => num (pen.w j), setting := pen.ini }

theorem Rep.eq {pen : Pen K n} {s : PenaltyMemory K n} (h : Rep pen s) : decode pen = s := by
  unfold decode
  obtain ⟨h1, h2, h3, h4, -, -⟩ := h
  cases s with | mk r fl w st =>
  dsimp only at *
  congr
  · rw [h1, List.map_map]
    exact List.map_id _
  · rw [h2, Bool.not_not]
  · funext j; rw [h3]

variable {S : Type} {P : Par K n} {G : Gauss S K p n} {c : Cfg}

/-- A penalised generation. -/
theorem body_penalized {fn : Vec K n → Val K} {f : Vec K n → K} (hf : ∀ x, fn x = .fin (f x)) (hobj : P.obj.Faithful fn)
    (hpen : P.penalized = true) {mu : Nat} (hme : P.mueff = mueff mu) (hs : IsArgsort P.srt) {L : St S K p n}
    {r : St S K p n × Gen K p n} {s : PenaltyMemory K n} (hR : Rep L.pen s) (hb : body P G c L = .ok r) :
    ∃ X t, G.sample L.s = .ok (X, t) ∧ ∃ s', Rep r.1.pen s' ∧
      PenaltyStep mu (L.it + 1) (G.mean t) (G.old t) (G.sigma t) (G.diagC t) (fun i => f (r.2.X i)) s s' ∧
      (∀ i, r.2.X i = fromCube P.lower P.upper (nearest (X i))) ∧
      (∀ i, r.2.fit i = .fin (f (r.2.X i) + boundaryPenalty s'.w (G.diagC t) (X i))) ∧
      ∀ i, r.2.fit r.2.best ≤ r.2.fit i := by
  obtain ⟨hp, a, e, rows, t, h1, h2, h3, h4, h5, h6, rfl⟩ := body_ok hb
  rw [evaluate_pen hpen, hme] at h2
  have hfit : P.obj.pop (fun i => unstandardize P.lower P.upper (e.2.1 i)) =
      fun i => .fin (f (unstandardize P.lower P.upper (e.2.1 i))) := by
    funext i; rw [hobj.pop, hf]
  obtain ⟨s', k1, k2, k3, k4⟩ := penalize_step hs hR h2 hfit
  refine ⟨a.1, a.2, h1, s', k1, k2, fun i => ?_, k4, fun i => ?_⟩
  · show unstandardize P.lower P.upper (e.2.1 i) = _
    rw [k3 i]
    funext j
    unfold unstandardize fromCube
    ring
  · show e.1 (P.srt p e.1 ⟨0, hp⟩) ≤ e.1 i
    have := hs p e.1 ⟨0, hp⟩ ((P.srt p e.1).symm i) (Nat.zero_le _)
    rw [Equiv.apply_symm_apply] at this
    refine this.resolve_left ?_
    rw [k4]; simp

end

end Stochopy.Evo
