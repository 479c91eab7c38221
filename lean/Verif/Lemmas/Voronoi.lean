import Verif.Spec.Voronoi
import Verif.Lemmas.Box
import Verif.Lemmas.NA
import Verif.Lemmas.Argsort
import Mathlib.Algebra.BigOperators.Group.Finset.Piecewise
import Mathlib.Tactic.FieldSimp

/-! The walk of the neighbourhood algorithm stays in a Voronoi cell. -/

set_option linter.unusedSectionVars false

namespace Stochopy

theorem foldl_finRange {β : Type} {n : Nat} {f : β → Fin n → β} (I : Nat → β → Prop) {b : β} (h0 : I 0 b)
    (hs : ∀ (j : Fin n) b, I j.val b → I (j.val + 1) (f b j)) : I n ((List.finRange n).foldl f b) := by
  have key : ∀ (l : List (Fin n)) (k : Nat) (b : β), k ≤ n → l = (List.finRange n).drop k → I k b → I n (l.foldl f b) := by
    intro l
    induction l with
    | nil =>
      intro k b hk h hI
      have : n - k = 0 := by simpa using (congrArg List.length h).symm
      have : k = n := by omega
      subst this; exact hI
    | cons a t ih =>
      intro k b hk h hI
      have hlt : k < n := by
        have := congrArg List.length h
        simp at this; omega
      rw [List.drop_eq_getElem_cons (by simpa using hlt)] at h
      simp only [List.getElem_finRange, List.cons.injEq] at h
      obtain ⟨rfl, rfl⟩ := h
      exact ih (k + 1) _ hlt rfl (hs ⟨k, hlt⟩ b hI)
  exact key _ 0 b (Nat.zero_le _) (by simp) h0

end Stochopy

namespace Stochopy.NA
open Spec
variable {K σ : Type} [Field K] [LinearOrder K] [IsStrictOrderedRing K] {p n : Nat}

/-- Squared distance in all coordinates but `j`. -/
def distOff (j : Nat) (x y : Vec K n) : K := ∑ l : Fin n, if l.val = j then 0 else (x l - y l) ^ 2

/-- Squared distance. -/
def dist2 (x y : Vec K n) : K := ∑ l : Fin n, (x l - y l) ^ 2

theorem sum_tail (u v : Vec K n) :
    ∑ l : Fin (n - 1), (u ⟨l + 1, by omega⟩ - v ⟨l + 1, by omega⟩) ^ 2 = distOff 0 v u := by
  unfold distOff
  cases n with
  | zero => rfl
  | succ m =>
    rw [Fin.sum_univ_succ]
    simp only [Fin.val_zero, if_true, zero_add]
    refine Finset.sum_congr rfl fun l _ => ?_
    rw [if_neg (by simp)]
    show (u l.succ - v l.succ) ^ 2 = _
    ring

theorem dist2_eq (x y : Vec K n) (j : Fin n) : dist2 x y = distOff j.val x y + (x j - y j) ^ 2 := by
  unfold dist2 distOff
  have h : (∑ l : Fin n, if l.val = j.val then 0 else (x l - y l) ^ 2) =
      (0 : K) + ∑ l ∈ Finset.univ.erase j, (x l - y l) ^ 2 := by
    rw [← Finset.add_sum_erase _ _ (Finset.mem_univ j), if_pos rfl]
    congr 1
    refine Finset.sum_congr rfl fun l hl => ?_
    rw [if_neg]
    intro h
    exact (Finset.mem_erase.1 hl).1 (Fin.ext h)
  rw [h, ← Finset.add_sum_erase _ _ (Finset.mem_univ j)]
  ring

theorem distOff_update (x y : Vec K n) (j : Fin n) (t : K) :
    distOff j.val (Function.update x j t) y = distOff j.val x y := by
  unfold distOff
  refine Finset.sum_congr rfl fun l _ => ?_
  by_cases h : l.val = j.val
  · rw [if_pos h, if_pos h]
  · rw [if_neg h, if_neg h, Function.update_of_ne]
    rintro rfl; exact h rfl

theorem lowLim_ge {lims : List (Val K)} {x l : K} (hl : .fin l ∈ lims) (hx : l ≤ x) : l ≤ lowLim lims x := by
  unfold lowLim
  have mono : ∀ (L : List (Val K)) (acc : K), acc ≤ L.foldl (fun acc l => match l with
    | .fin l => if l ≤ x then max l acc else acc
    | _ => acc) acc := by
    intro L
    induction L with
    | nil => intro acc; exact le_rfl
    | cons a L ih =>
      intro acc
      refine le_trans ?_ (ih _)
      cases a with
      | fin a => dsimp only; split_ifs <;> simp
      | _ => exact le_rfl
  obtain ⟨s, t, rfl⟩ := List.append_of_mem hl
  rw [List.foldl_append, List.foldl_cons]
  refine le_trans ?_ (mono _ _)
  dsimp only
  rw [if_pos hx]; exact le_max_left _ _

theorem highLim_le {lims : List (Val K)} {x l : K} (hl : .fin l ∈ lims) (hx : x ≤ l) : highLim lims x ≤ l := by
  unfold highLim
  have mono : ∀ (L : List (Val K)) (acc : K), L.foldl (fun acc l => match l with
    | .fin l => if x ≤ l then min l acc else acc
    | _ => acc) acc ≤ acc := by
    intro L
    induction L with
    | nil => intro acc; exact le_rfl
    | cons a L ih =>
      intro acc
      refine le_trans (ih _) ?_
      cases a with
      | fin a => dsimp only; split_ifs <;> simp
      | _ => exact le_rfl
  obtain ⟨s, t, rfl⟩ := List.append_of_mem hl
  rw [List.foldl_append, List.foldl_cons]
  refine le_trans (mono _ _) ?_
  dsimp only
  rw [if_pos hx]; exact min_le_left _ _

/-- Moving along coordinate `j` between the limits stays on the right side of the bisector. -/
theorem stay {lims : List (Val K)} {v u d1 d2 x t : K} (hmem : lim v u d1 d2 ∈ lims)
    (hx : d1 + (x - v) ^ 2 ≤ d2 + (x - u) ^ 2) (hlo : lowLim lims x ≤ t) (hhi : t ≤ highLim lims x) :
    d1 + (t - v) ^ 2 ≤ d2 + (t - u) ^ 2 := by
  by_cases h0 : v - u = 0
  · have : v = u := sub_eq_zero.1 h0
    subst this
    linarith
  · have hl : lim v u d1 d2 = .fin (1 / 2 * (v + u + (d1 - d2) / (v - u))) := by
      unfold lim npDiv
      rw [if_neg h0]
    rw [hl] at hmem
    set q := (d1 - d2) / (v - u) with hq
    have hq' : d1 - d2 = q * (v - u) := by rw [hq]; field_simp
    rcases lt_or_gt_of_ne h0 with hneg | hpos
    · have h1 : x ≤ 1 / 2 * (v + u + q) := by
        by_contra hc
        push Not at hc
        have := mul_pos (sub_pos.2 hc) (neg_pos.2 hneg)
        nlinarith
      have h2 := le_trans hhi (highLim_le hmem h1)
      have := mul_nonneg (sub_nonneg.2 h2) (neg_nonneg.2 hneg.le)
      nlinarith
    · have h1 : 1 / 2 * (v + u + q) ≤ x := by
        by_contra hc
        push Not at hc
        have := mul_pos (sub_pos.2 hc) hpos
        nlinarith
      have h2 := le_trans (lowLim_ge hmem h1) hlo
      have := mul_nonneg (sub_nonneg.2 h2) hpos.le
      nlinarith

/-- Invariant of the walk before coordinate `j`. -/
structure WalkInv (mask : Fin n → Bool) (vk : Vec K n) (U : List (Vec K n)) (j : Nat) (st : Walk σ K n) : Prop where
  unit : Unit mask st.x
  rows : st.W.map Prod.fst = U
  cell : ∀ w ∈ st.W, dist2 st.x vk ≤ dist2 st.x w.1
  d1 : j < n → st.d1 = distOff j st.x vk
  d2 : j < n → ∀ w ∈ st.W, w.2 = distOff j st.x w.1

theorem walkStep_inv {R : Rng σ K} (hR : R.Ok) {mask : Fin n → Bool} (hmask : ∀ j, mask j = true) {vk : Vec K n}
    {U : List (Vec K n)} {st : Walk σ K n} (j : Fin n) (h : WalkInv mask vk U j.val st) :
    WalkInv mask vk U (j.val + 1) (walkStep R mask vk st j) := by
  have hu := walkStep_unit (R := R) (vk := vk) (j := j) hR h.unit
  have hd1 := h.d1 j.isLt
  have hd2 := h.d2 j.isLt
  unfold walkStep at hu ⊢
  rw [if_pos (hmask j)] at hu ⊢
  dsimp only at hu ⊢
  generalize hlims : (st.W.map fun w => lim (vk j) (w.1 j) st.d1 w.2) = lims at *
  set t := unif (lowLim lims (st.x j)) (highLim lims (st.x j)) (R.rand st.rng).1 with ht
  have hrange : lowLim lims (st.x j) ≤ t ∧ t ≤ highLim lims (st.x j) := by
    obtain ⟨h0, h1⟩ := h.unit j (hmask j)
    have hl := lowLim_bounds (lims := lims) h0
    have hh := highLim_bounds (lims := lims) h1
    exact unif_mem (le_trans hl.2 hh.1) (hR.rand_nonneg st.rng) (hR.rand_lt_one st.rng)
  have hcell : ∀ w ∈ st.W, dist2 (Function.update st.x j t) vk ≤ dist2 (Function.update st.x j t) w.1 := by
    intro w hw
    have hc := h.cell w hw
    rw [dist2_eq _ _ j, dist2_eq _ w.1 j] at hc ⊢
    rw [distOff_update, distOff_update, Function.update_self]
    rw [← hd1, ← hd2 w hw] at hc ⊢
    refine stay (lims := lims) ?_ hc hrange.1 hrange.2
    rw [← hlims]
    exact List.mem_map.2 ⟨w, hw, rfl⟩
  have hnext : ∀ (y : Vec K n) (h' : j.val + 1 < n), distOff (j.val + 1) (Function.update st.x j t) y =
      distOff j.val (Function.update st.x j t) y + ((y j - Function.update st.x j t j) ^ 2 -
        (y ⟨j.val + 1, h'⟩ - Function.update st.x j t ⟨j.val + 1, h'⟩) ^ 2) := by
    intro y h'
    have e1 := dist2_eq (Function.update st.x j t) y j
    have e2 := dist2_eq (Function.update st.x j t) y ⟨j.val + 1, h'⟩
    rw [e1] at e2
    have e3 : distOff (j.val + 1) (Function.update st.x j t) y = distOff j.val (Function.update st.x j t) y +
        (Function.update st.x j t j - y j) ^ 2 - (Function.update st.x j t ⟨j.val + 1, h'⟩ - y ⟨j.val + 1, h'⟩) ^ 2 := by
      rw [e2]; dsimp only; ring
    rw [e3]; ring
  by_cases hj : j.val + 1 < n
  · rw [dif_pos hj] at hu ⊢
    refine ⟨hu, ?_, ?_, ?_, ?_⟩
    · dsimp only
      rw [List.map_map, ← h.rows]
      rfl
    · intro w hw
      obtain ⟨w', hw', rfl⟩ := List.mem_map.1 hw
      exact hcell w' hw'
    · intro _
      dsimp only
      rw [hnext vk hj, distOff_update, ← hd1]
    · intro _ w hw
      obtain ⟨w', hw', rfl⟩ := List.mem_map.1 hw
      dsimp only
      rw [hnext w'.1 hj, distOff_update, ← hd2 w' hw']
  · rw [dif_neg hj] at hu ⊢
    exact ⟨hu, h.rows, hcell, fun h' => absurd h' hj, fun h' => absurd h' hj⟩

theorem walk_voronoi {R : Rng σ K} (hR : R.Ok) {mask : Fin n → Bool} (hmask : ∀ j, mask j = true) {Xall : List (Vec K n)}
    {k : Fin Xall.length} {g : σ} (h : ∀ x ∈ Xall, Unit mask x) :
    ∀ u ∈ Xall, dist2 (walk R mask Xall k g).x (Xall.get k) ≤ dist2 (walk R mask Xall k g).x u := by
  have key : WalkInv mask (Xall.get k) (Xall.eraseIdx k) n (walk R mask Xall k g) := by
    unfold walk
    refine foldl_finRange (fun j st => WalkInv mask (Xall.get k) (Xall.eraseIdx k) j st) ?_
      (fun j st hI => walkStep_inv hR hmask j hI)
    refine ⟨h _ (List.get_mem _ _), ?_, ?_, ?_, ?_⟩
    · dsimp only; rw [List.map_map]; simp [Function.comp_def]
    · intro w _
      dsimp only
      unfold dist2
      refine Finset.sum_le_sum fun l _ => ?_
      rw [sub_self]
      simpa using sq_nonneg _
    · intro _
      dsimp only
      unfold distOff
      rw [Finset.sum_eq_zero]
      intro l _
      split_ifs <;> simp
    · intro _ w hw
      obtain ⟨u, hu, rfl⟩ := List.mem_map.1 hw
      dsimp only
      rw [ArrayOps.sum_eq]
      exact sum_tail u (Xall.get k)
  intro u hu
  obtain ⟨i, rfl⟩ := List.mem_iff_get.1 hu
  by_cases hik : i.val = k.val
  · have : i = k := Fin.ext hik
    rw [this]
  · have : Xall.get i ∈ Xall.eraseIdx k := by
      rw [List.mem_eraseIdx_iff_getElem]
      exact ⟨i.val, i.isLt, hik, rfl⟩
    rw [← key.rows] at this
    obtain ⟨w, hw, he⟩ := List.mem_map.1 this
    rw [← he]
    exact key.cell w hw

theorem sortLe_not_better {a b : Val K} (h : sortLe a b) : ¬ Better b a := by
  rintro (h1 | ⟨h1, rfl⟩)
  · rcases h with rfl | h
    · exact Val.not_nan_lt h1
    · exact Val.not_lt_of_le' h h1
  · rcases h with h | h
    · exact h1 h
    · exact Val.ne_nan_left h rfl

/-- Entry number `r` of the sorted order has at most `r` better ones. -/
theorem count_better {srt : Argsort K} (hs : IsArgsort srt) {m : Nat} (v : Fin m → Val K) (r : Fin m) :
    (List.ofFn v).countP (fun u => decide (Better u (v (srt m v r)))) ≤ r.val := by
  have h1 : (List.ofFn v).countP (fun u => decide (Better u (v (srt m v r)))) =
      ((Finset.univ : Finset (Fin m)).filter fun i => Better (v i) (v (srt m v r))).card := by
    rw [List.ofFn_eq_map, List.countP_map, List.countP_eq_length_filter]
    rw [← List.toFinset_card_of_nodup ((List.nodup_finRange m).filter _)]
    congr 1
    ext i
    simp
  rw [h1]
  have h2 : ((Finset.univ : Finset (Fin m)).filter fun i => Better (v i) (v (srt m v r))) ⊆
      ((Finset.univ : Finset (Fin m)).filter fun a => a < r).image (srt m v) := by
    intro i hi
    simp only [Finset.mem_filter, Finset.mem_univ, true_and, Finset.mem_image] at hi ⊢
    refine ⟨(srt m v).symm i, ?_, by simp⟩
    by_contra hc
    push Not at hc
    have := hs m v r ((srt m v).symm i) hc
    rw [Equiv.apply_symm_apply] at this
    exact sortLe_not_better this hi
  refine le_trans (Finset.card_le_card h2) (le_trans Finset.card_image_le ?_)
  have : ((Finset.univ : Finset (Fin m)).filter fun a => a < r) = Finset.Iio r := by ext; simp
  rw [this]; simp

theorem mutation_cell {R : Rng σ K} (hR : R.Ok) {srt : Argsort K} (hs : IsArgsort srt) {mask : Fin n → Bool}
    (hmask : ∀ j, mask j = true) {All : List (Vec K n × Val K)} {nr : Nat} (hnr : 1 ≤ nr) {g : σ} {U : Pop K p n × σ}
    (h : ∀ x ∈ All, Unit mask x.1) (hm : mutation R srt mask All p nr g = .ok U) (i : Fin p) :
    ∃ v ∈ All, (∀ u ∈ All, dist2 (U.1 i) v.1 ≤ dist2 (U.1 i) u.1) ∧
      All.countP (fun u => decide (Better u.2 v.2)) < nr := by
  obtain ⟨g0, g1, hi⟩ := seqFinS_ok hm i
  unfold mutRow at hi
  dsimp only at hi
  by_cases hr : i.val % nr < (All.map Prod.fst).length
  · rw [dif_pos hr] at hi
    simp only [Except.ok.injEq, Prod.mk.injEq] at hi
    set v : Fin (All.map Prod.fst).length → Val K := fun k => (All.get (k.cast (by simp))).2 with hv
    set k := srt _ v ⟨i.val % nr, hr⟩ with hk
    have hw := walk_voronoi hR hmask (Xall := All.map Prod.fst) (k := k) (g := g0)
      (by intro x hx; obtain ⟨a, ha, rfl⟩ := List.mem_map.1 hx; exact h a ha)
    rw [hi.1] at hw
    refine ⟨All.get (k.cast (by simp)), List.get_mem _ _, ?_, ?_⟩
    · intro u hu
      have := hw u.1 (List.mem_map.2 ⟨u, hu, rfl⟩)
      simpa using this
    · have hc := count_better hs v ⟨i.val % nr, hr⟩
      have hlt : i.val % nr < nr := Nat.mod_lt _ hnr
      have hl : List.ofFn v = All.map Prod.snd := by
        apply List.ext_getElem
        · simp
        · intro m h1 h2; simp [hv]
      rw [hl, List.countP_map] at hc
      refine lt_of_le_of_lt ?_ hlt
      exact hc
  · rw [dif_neg hr] at hi
    cases hi

end Stochopy.NA
