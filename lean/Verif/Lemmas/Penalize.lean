import Verif.Model.Evo
import Verif.Base.Lawful
import Verif.Lemmas.EvoBox
import Mathlib.Tactic.Positivity
import Mathlib.Tactic.FieldSimp

/-! `Penalize`. -/

set_option linter.unusedSectionVars false

namespace Stochopy
open Spec
variable {K : Type} [Field K] [LinearOrder K] [IsStrictOrderedRing K]

namespace Val

theorem fin_add' (a b : K) : fin a + fin b = fin (a + b) := rfl
theorem fin_neg' (a : K) : -(fin a) = fin (-a) := rfl
theorem fin_sub' (a b : K) : fin a - fin b = fin (a - b) := by
  show fin (a + -b) = _; rw [sub_eq_add_neg]
theorem fin_mul' (a b : K) : fin a * fin b = fin (a * b) := rfl
theorem divBy_fin' {a b : K} (h : b ≠ 0) : divBy (fin a) b = fin (a / b) := if_neg h

theorem nan_add (a : Val K) : nan + a = nan := by cases a <;> rfl
theorem add_nan (a : Val K) : a + nan = nan := by cases a <;> rfl
theorem nan_sub (a : Val K) : nan - a = nan := by cases a <;> rfl
theorem sub_nan (a : Val K) : a - nan = nan := by cases a <;> rfl
theorem nan_mul (a : Val K) : nan * a = nan := by cases a <;> rfl
theorem mul_nan (a : Val K) : a * nan = nan := by cases a <;> rfl

theorem pinf_mul_pos {b : K} (h : 0 < b) : pinf * fin b = pinf := by
  show (if 0 < b then pinf else if b < 0 then ninf else nan) = _; rw [if_pos h]
theorem ninf_mul_pos {b : K} (h : 0 < b) : ninf * fin b = ninf := by
  show (if 0 < b then ninf else if b < 0 then pinf else nan) = _; rw [if_pos h]
theorem pinf_mul_zero : pinf * fin (0 : K) = nan := by
  show (if (0 : K) < 0 then pinf else if (0 : K) < 0 then ninf else nan) = _; rw [if_neg (lt_irrefl _), if_neg (lt_irrefl _)]
theorem pos_mul_pinf {b : K} (h : 0 < b) : fin b * pinf = pinf := by
  show (if 0 < b then pinf else if b < 0 then ninf else nan) = _; rw [if_pos h]
theorem zero_mul_pinf : fin (0 : K) * pinf = nan := by
  show (if (0 : K) < 0 then pinf else if (0 : K) < 0 then ninf else nan) = _; rw [if_neg (lt_irrefl _), if_neg (lt_irrefl _)]

/-- NaN or at least zero. -/
def NN (v : Val K) : Prop := ¬ v < fin 0

theorem nn_fin {a : K} : NN (fin a) ↔ 0 ≤ a := by unfold NN; rw [fin_lt_fin, not_lt]
theorem nn_nan : NN (nan : Val K) := not_nan_lt
theorem nn_pinf : NN (pinf : Val K) := not_pinf_lt
theorem not_nn_ninf : ¬ NN (ninf : Val K) := fun h => h ninf_lt_fin

theorem NN.add {a b : Val K} (ha : NN a) (hb : NN b) : NN (a + b) := by
  cases a with
  | nan => rw [nan_add]; exact nn_nan
  | ninf => exact absurd ha not_nn_ninf
  | pinf =>
    cases b with
    | ninf => exact absurd hb not_nn_ninf
    | nan => exact nn_nan
    | pinf => exact nn_pinf
    | fin b => exact nn_pinf
  | fin a =>
    cases b with
    | ninf => exact absurd hb not_nn_ninf
    | nan => exact nn_nan
    | pinf => exact nn_pinf
    | fin b => rw [fin_add', nn_fin]; rw [nn_fin] at ha hb; exact add_nonneg ha hb

theorem NN.fin_mul {a : K} (ha : 0 ≤ a) {b : Val K} (hb : NN b) : NN (fin a * b) := by
  cases b with
  | nan => exact nn_nan
  | ninf => exact absurd hb not_nn_ninf
  | pinf =>
    rcases ha.eq_or_lt with h | h
    · rw [← h, zero_mul_pinf]; exact nn_nan
    · rw [pos_mul_pinf h]; exact nn_pinf
  | fin b => rw [fin_mul', nn_fin]; exact mul_nonneg ha (nn_fin.1 hb)

theorem NN.mul_fin {a : K} (ha : 0 < a) {b : Val K} (hb : NN b) : NN (b * fin a) := by
  cases b with
  | nan => exact nn_nan
  | ninf => exact absurd hb not_nn_ninf
  | pinf => rw [pinf_mul_pos ha]; exact nn_pinf
  | fin b => rw [fin_mul', nn_fin]; exact mul_nonneg (nn_fin.1 hb) ha.le

theorem NN.divBy {a : K} (ha : 0 < a) {b : Val K} (hb : NN b) : NN (b.divBy a) := by
  cases b with
  | nan => exact nn_nan
  | ninf => exact absurd hb not_nn_ninf
  | pinf => show NN (if a < 0 then ninf else pinf); rw [if_neg (not_lt.2 ha.le)]; exact nn_pinf
  | fin b => rw [divBy_fin' ha.ne', nn_fin]; exact div_nonneg (nn_fin.1 hb) ha.le

theorem not_add_lt {a b : Val K} (hb : NN b) : ¬ a + b < a := by
  cases a with
  | nan => exact not_lt_nan
  | ninf => exact not_lt_ninf
  | pinf =>
    cases b with
    | ninf => exact absurd hb not_nn_ninf
    | nan => exact not_nan_lt
    | pinf => exact not_pinf_lt
    | fin b => exact not_pinf_lt
  | fin a =>
    cases b with
    | ninf => exact absurd hb not_nn_ninf
    | nan => exact not_nan_lt
    | pinf => exact not_pinf_lt
    | fin b =>
      rw [fin_add', fin_lt_fin, not_lt]
      have := nn_fin.1 hb
      linarith

theorem nn_sub {a b : Val K} (h : b ≤ a) : NN (a - b) := by
  cases a <;> cases b <;> simp at h <;> first
    | exact nn_nan
    | exact nn_pinf
    | (rw [fin_sub', nn_fin]; linarith)

end Val

namespace Evo
open Val

theorem nn_vsum {n : Nat} {v : Fin n → Val K} (h : ∀ j, NN (v j)) : NN (vsum v) := by
  unfold vsum
  have : ∀ (l : List (Fin n)) (b : Val K), NN b → NN (l.foldl (fun a j => a + v j) b) := by
    intro l
    induction l with
    | nil => intro b hb; exact hb
    | cons j l ih => intro b hb; exact ih _ (hb.add (h j))
  exact this _ _ (nn_fin.2 (le_refl _))

theorem vsum_fin {n : Nat} (u : Fin n → K) : vsum (fun j => (.fin (u j) : Val K)) = .fin (∑ j, u j) := by
  unfold vsum
  have : ∀ (l : List (Fin n)) (b : K), l.foldl (fun a j => a + .fin (u j)) (.fin b : Val K) = .fin (b + (l.map u).sum) := by
    intro l
    induction l with
    | nil => intro b; simp
    | cons j l ih => intro b; rw [List.foldl_cons, fin_add', ih, List.map_cons, List.sum_cons, add_assoc]
  rw [this, zero_add, ← List.ofFn_eq_map, List.sum_ofFn]

/-! ### Interpolation -/

theorem lerp_fin (a b t : K) : lerp (.fin a) (.fin b) t = (.fin (a + (b - a) * t) : Val K) := by
  unfold lerp
  split_ifs
  · rw [fin_sub', fin_mul', fin_sub']; congr 1; ring
  · rw [fin_sub', fin_mul', fin_add']

/-- The results of interpolation that are numbers. -/
theorem lerp_cases {a b : Val K} {t : K} (h0 : 0 ≤ t) (h1 : t < 1) (hab : a ≤ b) :
    lerp a b t = .nan ∨ (a ≤ lerp a b t ∧ lerp a b t ≤ b) := by
  have ht : 0 < 1 - t := by linarith
  have hz : t = 0 ∨ 0 < t := by rcases h0.eq_or_lt with h | h; exacts [Or.inl h.symm, Or.inr h]
  cases a <;> cases b <;> simp at hab
  · left; unfold lerp; split_ifs <;> rfl
  · rename_i b
    by_cases hh : 1 / 2 ≤ t
    · right
      have : lerp (ninf : Val K) (fin b) t = ninf := by
        unfold lerp; rw [if_pos hh]
        show fin b - pinf * fin (1 - t) = _
        rw [pinf_mul_pos ht]; rfl
      rw [this]; simp
    · left
      unfold lerp; rw [if_neg hh]
      show ninf + pinf * fin t = _
      rcases hz with rfl | hz
      · rw [pinf_mul_zero]; rfl
      · rw [pinf_mul_pos hz]; rfl
  · left
    unfold lerp
    split_ifs
    · show pinf - pinf * fin (1 - t) = _
      rw [pinf_mul_pos ht]; rfl
    · show ninf + pinf * fin t = _
      rcases hz with rfl | hz
      · rw [pinf_mul_zero]; rfl
      · rw [pinf_mul_pos hz]; rfl
  · rename_i a b
    right
    rw [lerp_fin, fin_le_fin, fin_le_fin]
    constructor
    · have := mul_nonneg (sub_nonneg.2 hab) h0; linarith
    · have := mul_nonneg (sub_nonneg.2 hab) ht.le; nlinarith
  · rename_i a
    by_cases hh : 1 / 2 ≤ t
    · left
      unfold lerp; rw [if_pos hh]
      show pinf - pinf * fin (1 - t) = _
      rw [pinf_mul_pos ht]; rfl
    · unfold lerp; rw [if_neg hh]
      show fin a + pinf * fin t = _ ∨ _
      rcases hz with rfl | hz
      · left; rw [pinf_mul_zero]; rfl
      · right
        show fin a ≤ fin a + pinf * fin t ∧ fin a + pinf * fin t ≤ pinf
        rw [pinf_mul_pos hz]; exact ⟨fin_le_pinf, pinf_le_pinf⟩
  · left; unfold lerp; split_ifs <;> rfl

/-- Interpolation is monotone. -/
theorem lerp_mono {a b : Val K} {t t' : K} (h1 : t' < 1) (h0 : 0 ≤ t) (htt : t ≤ t') (hab : a ≤ b)
    (hn : lerp a b t ≠ .nan) (hn' : lerp a b t' ≠ .nan) : lerp a b t ≤ lerp a b t' := by
  by_cases he : ∃ x y, a = .fin x ∧ b = .fin y
  · obtain ⟨x, y, rfl, rfl⟩ := he
    rw [lerp_fin, lerp_fin, fin_le_fin]
    have := mul_le_mul_of_nonneg_left htt (sub_nonneg.2 (fin_le_fin.1 hab))
    linarith
  · rcases lerp_cases h0 (lt_of_le_of_lt htt h1) hab with h | ⟨h2, h3⟩
    · exact absurd h hn
    rcases lerp_cases (h0.trans htt) h1 hab with h | ⟨h4, h5⟩
    · exact absurd h hn'
    -- an infinite end is the value
    have ht : 0 < 1 - t := by linarith
    have ht' : 0 < 1 - t' := by linarith
    cases a <;> cases b <;> simp at hab he
    · exact absurd (by unfold lerp; split_ifs <;> rfl) hn
    · rename_i b
      by_cases hh : 1 / 2 ≤ t
      · have e : ∀ t : K, 1 / 2 ≤ t → 0 < 1 - t → lerp (ninf : Val K) (fin b) t = ninf := fun t hh ht => by
          unfold lerp; rw [if_pos hh]
          show fin b - pinf * fin (1 - t) = _
          rw [pinf_mul_pos ht]; rfl
        rw [e t hh ht, e t' (hh.trans htt) ht']; simp
      · refine absurd ?_ hn
        unfold lerp; rw [if_neg hh]
        show ninf + pinf * fin t = _
        rcases h0.eq_or_lt with rfl | hz
        · rw [pinf_mul_zero]; rfl
        · rw [pinf_mul_pos hz]; rfl
    · refine absurd ?_ hn
      unfold lerp
      split_ifs
      · show pinf - pinf * fin (1 - t) = _
        rw [pinf_mul_pos ht]; rfl
      · show ninf + pinf * fin t = _
        rcases h0.eq_or_lt with rfl | hz
        · rw [pinf_mul_zero]; rfl
        · rw [pinf_mul_pos hz]; rfl
    · rename_i a
      by_cases hh : 1 / 2 ≤ t'
      · refine absurd ?_ hn'
        unfold lerp; rw [if_pos hh]
        show pinf - pinf * fin (1 - t') = _
        rw [pinf_mul_pos ht']; rfl
      · have e : lerp (fin a) (pinf : Val K) t' = pinf := by
          unfold lerp; rw [if_neg hh]
          unfold lerp at hn'; rw [if_neg hh] at hn'
          change fin a + pinf * fin t' ≠ _ at hn'
          show fin a + pinf * fin t' = _
          rcases (h0.trans htt).eq_or_lt with hz | hz
          · rw [← hz, pinf_mul_zero] at hn'; exact absurd rfl hn'
          · rw [pinf_mul_pos hz]; rfl
        rw [e]; exact h3
    · exact absurd (by unfold lerp; split_ifs <;> rfl) hn

/-! ### Percentiles and median -/

section
variable {srt : Argsort K} {m : Nat} {v : Fin m → Val K}

theorem sorted_lt {k : Nat} (h : k < m) : sorted srt v k = v (srt m v ⟨k, h⟩) := dif_pos h

theorem sorted_mono (hs : IsArgsort srt) (hn : ∀ i, v i ≠ .nan) {i j : Nat} (hij : i ≤ j) (hj : j < m) :
    sorted srt v i ≤ sorted srt v j := by
  rw [sorted_lt (lt_of_le_of_lt hij hj), sorted_lt hj]
  exact (hs m v ⟨i, _⟩ ⟨j, hj⟩ hij).resolve_left (hn _)

theorem nn_sorted (h : ∀ i, NN (v i)) (k : Nat) : NN (sorted srt v k) := by
  unfold sorted
  split_ifs
  · exact h _
  · exact nn_nan

variable [FloorRing K]

/-- Position and remainder of a quantile. -/
theorem quantile {q : K} (h0 : 0 ≤ q) (h1 : q < 1) (hm : 0 < m) :
    ((⌊q * ((m : K) - 1)⌋.toNat : Nat) : K) ≤ q * ((m : K) - 1) ∧
    q * ((m : K) - 1) < ((⌊q * ((m : K) - 1)⌋.toNat : Nat) : K) + 1 ∧ ⌊q * ((m : K) - 1)⌋.toNat < m := by
  have hm1 : (0 : K) ≤ (m : K) - 1 := by
    have : (1 : K) ≤ m := by exact_mod_cast hm
    linarith
  have hq : 0 ≤ q * ((m : K) - 1) := mul_nonneg h0 hm1
  have hc : ((⌊q * ((m : K) - 1)⌋.toNat : Nat) : K) = (⌊q * ((m : K) - 1)⌋ : K) := by
    have : ((⌊q * ((m : K) - 1)⌋.toNat : Nat) : Int) = ⌊q * ((m : K) - 1)⌋ := Int.toNat_of_nonneg (Int.floor_nonneg.2 hq)
    exact_mod_cast congrArg (Int.cast : Int → K) this
  rw [hc]
  refine ⟨Int.floor_le _, Int.lt_floor_add_one _, ?_⟩
  have h2 : ((⌊q * ((m : K) - 1)⌋.toNat : Nat) : K) < (m : K) := by
    rw [hc]
    have := Int.floor_le (q * ((m : K) - 1))
    have : q * ((m : K) - 1) ≤ (m : K) - 1 := by nlinarith
    linarith
  exact_mod_cast h2

theorem nn_percentiles (hs : IsArgsort srt) (hm : 0 < m) : NN (percentile srt v (3 / 4) - percentile srt v (1 / 4)) := by
  by_cases hnan : ∃ i, (v i).isNan = true
  · unfold percentile; rw [if_pos hnan, if_pos hnan]; exact nn_nan
  have hn : ∀ i, v i ≠ .nan := fun i h => hnan ⟨i, by rw [h]; rfl⟩
  obtain ⟨a1, a2, a3⟩ := quantile (K := K) (q := 1 / 4) (by norm_num) (by norm_num) hm
  obtain ⟨b1, b2, b3⟩ := quantile (K := K) (q := 3 / 4) (by norm_num) (by norm_num) hm
  unfold percentile
  rw [if_neg hnan, if_neg hnan]
  dsimp only
  have hm1 : (0 : K) ≤ (m : K) - 1 := by
    have : (1 : K) ≤ m := by exact_mod_cast hm
    linarith
  have hle : ⌊1 / 4 * ((m : K) - 1)⌋.toNat ≤ ⌊3 / 4 * ((m : K) - 1)⌋.toNat :=
    Int.toNat_le_toNat (Int.floor_le_floor (by linarith))
  generalize ⌊1 / 4 * ((m : K) - 1)⌋.toNat = i at *
  generalize ⌊3 / 4 * ((m : K) - 1)⌋.toNat = j at *
  have hi := sorted_mono (srt := srt) hs hn (i := i) (j := min (i + 1) (m - 1)) (by omega) (by omega)
  have hj := sorted_mono (srt := srt) hs hn (i := j) (j := min (j + 1) (m - 1)) (by omega) (by omega)
  by_cases n1 : lerp (sorted srt v i) (sorted srt v (min (i + 1) (m - 1))) (1 / 4 * ((m : K) - 1) - i) = .nan
  · rw [n1, sub_nan]; exact nn_nan
  by_cases n2 : lerp (sorted srt v j) (sorted srt v (min (j + 1) (m - 1))) (3 / 4 * ((m : K) - 1) - j) = .nan
  · rw [n2, nan_sub]; exact nn_nan
  refine nn_sub ?_
  rcases Nat.eq_or_lt_of_le hle with h | h
  · subst h
    exact lerp_mono (by linarith) (by linarith) (by linarith) hi n1 n2
  · rcases lerp_cases (t := 1 / 4 * ((m : K) - 1) - i) (by linarith) (by linarith) hi with h1 | ⟨-, h1⟩
    · exact absurd h1 n1
    rcases lerp_cases (t := 3 / 4 * ((m : K) - 1) - j) (by linarith) (by linarith) hj with h2 | ⟨h2, -⟩
    · exact absurd h2 n2
    exact Val.le_trans' h1 (Val.le_trans' (sorted_mono hs hn (by omega) b3) h2)

theorem percentile_fin (hv : ∀ i, ∃ k, v i = .fin k) {q : K} (h0 : 0 ≤ q) (h1 : q < 1) (hm : 0 < m) :
    ∃ d, percentile srt v q = .fin d := by
  have hnan : ¬ ∃ i, (v i).isNan = true := by
    rintro ⟨i, h⟩
    obtain ⟨k, hk⟩ := hv i
    rw [hk] at h; cases h
  unfold percentile
  rw [if_neg hnan]
  dsimp only [IntParts.floor_eq]
  obtain ⟨-, -, a3⟩ := quantile (K := K) (q := q) h0 h1 hm
  rw [sorted_lt a3, sorted_lt (by omega)]
  obtain ⟨a, ha⟩ := hv (srt m v ⟨_, a3⟩)
  obtain ⟨b, hb⟩ := hv (srt m v ⟨min (⌊q * ((m : K) - 1)⌋.toNat + 1) (m - 1), by omega⟩)
  rw [ha, hb, lerp_fin]
  exact ⟨_, rfl⟩

theorem percentiles_fin (hs : IsArgsort srt) (hv : ∀ i, ∃ k, v i = .fin k) (hm : 0 < m) :
    ∃ d, 0 ≤ d ∧ percentile srt v (3 / 4) - percentile srt v (1 / 4) = .fin d := by
  have h := nn_percentiles (srt := srt) (v := v) hs hm
  obtain ⟨a, ha⟩ := percentile_fin (srt := srt) hv (q := 3 / 4) (by norm_num) (by norm_num) hm
  obtain ⟨b, hb⟩ := percentile_fin (srt := srt) hv (q := 1 / 4) (by norm_num) (by norm_num) hm
  rw [ha, hb, fin_sub'] at h ⊢
  exact ⟨_, nn_fin.1 h, rfl⟩

end

theorem nn_median {srt : Argsort K} {l : List (Val K)} (h : ∀ d ∈ l, NN d) : NN (median srt l) := by
  unfold median
  have hg : ∀ i, NN (l.get i) := fun i => h _ (List.get_mem l i)
  split_ifs
  · exact nn_nan
  · exact nn_sorted hg _
  · exact ((nn_sorted hg _).add (nn_sorted hg _)).divBy (by norm_num)

theorem median_fin {srt : Argsort K} {l : List (Val K)} (h : ∀ d ∈ l, ∃ k, 0 < k ∧ d = .fin k) (hl : l ≠ []) :
    ∃ k, 0 < k ∧ median srt l = .fin k := by
  have hlen : 0 < l.length := List.length_pos_iff.2 hl
  have hg : ∀ k, k < l.length → ∃ x, 0 < x ∧ sorted srt l.get k = .fin x := fun k hk => by
    rw [sorted_lt hk]; exact h _ (List.get_mem l _)
  unfold median
  have h0 : ¬ l.any Val.isNan = true := by
    rw [List.any_eq_true]
    rintro ⟨d, hd, hdn⟩
    obtain ⟨k, -, rfl⟩ := h d hd
    cases hdn
  rw [if_neg h0]
  by_cases h1 : l.length % 2 = 1
  · rw [if_pos h1]; exact hg _ (by omega)
  · rw [if_neg h1]
    obtain ⟨a, ha, ea⟩ := hg (l.length / 2 - 1) (by omega)
    obtain ⟨b, hb, eb⟩ := hg (l.length / 2) (by omega)
    rw [ea, eb, fin_add', divBy_fin' (by norm_num)]
    exact ⟨_, by positivity, rfl⟩

/-! ### The history of fitness ranges -/

section
variable [NumFns K] [LawfulNumFns K] [FloorRing K] {p n : Nat} {srt : Argsort K}

theorem npMin_cases (a b : Val K) : npMin a b = a ∨ npMin a b = b := by
  unfold npMin; split_ifs <;> simp

theorem npMinList_mem {l : List (Val K)} {d : Val K} (h : npMinList l = .ok d) : d ∈ l := by
  unfold npMinList at h
  cases l with
  | nil => cases h
  | cons v t =>
    injection h with h
    subst h
    have : ∀ (t : List (Val K)) (v : Val K), t.foldl npMin v ∈ v :: t := by
      intro t
      induction t with
      | nil => intro v; simp
      | cons a t ih =>
        intro v
        rw [List.foldl_cons]
        rcases npMin_cases v a with h | h <;> rw [h]
        · rcases List.mem_cons.1 (ih v) with h | h
          · rw [h]; simp
          · exact List.mem_cons_of_mem _ (List.mem_cons_of_mem _ h)
        · exact List.mem_cons_of_mem _ (ih a)
    exact this t v

theorem positiveMin_ok {l : List (Val K)} {d : Val K} (h : positiveMin l = .ok d) : d ∈ l ∧ .fin 0 < d := by
  have := npMinList_mem h
  rw [List.mem_filter, decide_eq_true_iff] at this
  exact this

theorem positiveMin_error {l : List (Val K)} {e : PyErr} (h : positiveMin l = .error e) :
    e = .valueError ∧ ∀ d ∈ l, ¬ .fin 0 < d := by
  unfold positiveMin npMinList at h
  split at h
  · rename_i hl
    injection h with h
    refine ⟨h.symm, fun d hd hlt => ?_⟩
    have := List.filter_eq_nil_iff.1 hl d hd
    simp [hlt] at this
  · cases h

/-- Every entry is NaN or positive, the history is not empty and not longer than `21 + 3 n / p`; no weight is negative. -/
structure PenInv (p : Nat) (pen : Pen K n) : Prop where
  nonempty : pen.hist ≠ []
  entries : ∀ d ∈ pen.hist, NN d ∧ d ≠ .fin 0
  length : (pen.hist.length : K) < 21 + 3 * (n : K) / (p : K)
  weights : ∀ j, NN (pen.w j)

/-- Everything is finite. -/
structure PenFin (pen : Pen K n) : Prop where
  entries : ∀ d ∈ pen.hist, ∃ k, 0 < k ∧ d = .fin k
  weights : ∀ j, ∃ k, 0 ≤ k ∧ pen.w j = .fin k

theorem penInv_start : PenInv p (Pen.start n : Pen K n) where
  nonempty := by simp [Pen.start]
  entries d hd := by
    have : d = .fin 1 := by simpa [Pen.start] using hd
    rw [this, nn_fin]
    exact ⟨zero_le_one, by simp⟩
  length := by
    have : (0 : K) ≤ 3 * (n : K) / (p : K) := by positivity
    simp only [Pen.start, List.length_singleton, Nat.cast_one]
    linarith
  weights j := nn_fin.2 (le_refl _)

theorem penFin_start : PenFin (Pen.start n : Pen K n) where
  entries d hd := ⟨1, one_pos, by simpa [Pen.start] using hd⟩
  weights j := ⟨0, le_refl _, rfl⟩

theorem push_ne (hist : List (Val K)) (d : Val K) : push n p hist d ≠ [] := by
  unfold push; split_ifs <;> simp

theorem push_mem {hist : List (Val K)} {d x : Val K} (h : x ∈ push n p hist d) : x ∈ hist ∨ x = d := by
  unfold push at h
  split_ifs at h
  · simpa using h
  · rcases List.mem_append.1 h with h | h
    · exact Or.inl (List.mem_of_mem_tail h)
    · exact Or.inr (by simpa using h)

theorem push_length {hist : List (Val K)} {d : Val K} (h : (hist.length : K) < 21 + 3 * (n : K) / (p : K)) :
    ((push n p hist d).length : K) < 21 + 3 * (n : K) / (p : K) := by
  unfold push
  split_ifs with h1
  · rw [List.length_append, List.length_singleton]; push_cast; linarith
  · have hpos : hist ≠ [] := by
      rintro rfl
      apply h1
      have : (0 : K) ≤ 3 * (n : K) / (p : K) := by positivity
      simp only [List.length_nil, Nat.cast_zero]
      linarith
    have : (hist.tail ++ [d]).length = hist.length := by
      rw [List.length_append, List.length_tail, List.length_singleton]
      have := List.length_pos_iff.2 hpos
      omega
    rw [this]; exact h

theorem nn_fitRange (hs : IsArgsort srt) {fit : Fin p → Val K} {sigma : K} {diagC : Vec K n} (hn : 0 < n) (hp : 0 < p) (hsi : 0 < sigma)
    (hd : ∀ j, 0 < diagC j) : NN (fitRange srt fit sigma diagC) := by
  have hn' : (0 : K) < n := by exact_mod_cast hn
  have hsum : 0 < ∑ j, diagC j := Finset.sum_pos (fun j _ => hd j) ⟨⟨0, hn⟩, Finset.mem_univ _⟩
  exact (((nn_percentiles hs hp).divBy hn').divBy (by positivity)).divBy (by positivity)

theorem fitRange_fin (hs : IsArgsort srt) {fit : Fin p → Val K} {sigma : K} {diagC : Vec K n} (hn : 0 < n) (hp : 0 < p) (hsi : 0 < sigma)
    (hd : ∀ j, 0 < diagC j) (hf : ∀ i, ∃ k, fit i = .fin k) : ∃ d, 0 ≤ d ∧ fitRange srt fit sigma diagC = .fin d := by
  have hn' : (0 : K) < n := by exact_mod_cast hn
  have hsum : 0 < ∑ j, diagC j := Finset.sum_pos (fun j _ => hd j) ⟨⟨0, hn⟩, Finset.mem_univ _⟩
  obtain ⟨d, h0, h⟩ := percentiles_fin (srt := srt) hs hf hp
  unfold fitRange
  rw [h, divBy_fin' hn'.ne', divBy_fin' (by positivity), divBy_fin' (by positivity)]
  exact ⟨_, by positivity, rfl⟩

theorem history_ok (hs : IsArgsort srt) {fit : Fin p → Val K} {sigma : K} {diagC : Vec K n} {pen : Pen K n} {h}
    (hn : 0 < n) (hp : 0 < p) (hsi : 0 < sigma) (hd : ∀ j, 0 < diagC j) (hI : PenInv p pen)
    (hh : history srt fit sigma diagC pen = .ok h) :
    h.1 ≠ [] ∧ (∀ d ∈ h.1, NN d ∧ d ≠ .fin 0) ∧ (h.1.length : K) < 21 + 3 * (n : K) / (p : K) := by
  unfold history at hh
  dsimp only at hh
  by_cases h0 : fitRange srt fit sigma diagC = .fin 0
  · rw [if_pos h0] at hh
    cases hm : positiveMin pen.hist with
    | error e => rw [hm] at hh; cases hh
    | ok d =>
      rw [hm] at hh
      cases hh
      refine ⟨push_ne _ _, fun x hx => ?_, push_length hI.length⟩
      rcases push_mem hx with hx | rfl
      · exact hI.entries x hx
      · exact hI.entries _ (positiveMin_ok hm).1
  · rw [if_neg h0] at hh
    cases hh
    refine ⟨push_ne _ _, fun x hx => ?_, push_length ?_⟩
    · rcases push_mem hx with hx | rfl
      · split_ifs at hx
        · exact hI.entries x hx
        · simp at hx
      · exact ⟨nn_fitRange hs hn hp hsi hd, h0⟩
    · split_ifs
      · exact hI.length
      · have : (0 : K) ≤ 3 * (n : K) / (p : K) := by positivity
        simp only [List.length_nil, Nat.cast_zero]
        linarith

theorem history_fin (hs : IsArgsort srt) {fit : Fin p → Val K} {sigma : K} {diagC : Vec K n} {pen : Pen K n}
    (hn : 0 < n) (hp : 0 < p) (hsi : 0 < sigma) (hd : ∀ j, 0 < diagC j) (hf : ∀ i, ∃ k, fit i = .fin k) (hne : pen.hist ≠ [])
    (hI : PenFin pen) :
    ∃ h, history srt fit sigma diagC pen = .ok h ∧ h.1 ≠ [] ∧ ∀ d ∈ h.1, ∃ k, 0 < k ∧ d = .fin k := by
  unfold history
  dsimp only
  obtain ⟨d, h0, hr⟩ := fitRange_fin (srt := srt) hs hn hp hsi hd hf
  rw [hr]
  by_cases hz : (.fin d : Val K) = .fin 0
  · rw [if_pos hz]
    cases hm : positiveMin pen.hist with
    | error e =>
      obtain ⟨x, hx⟩ := List.exists_mem_of_ne_nil _ hne
      obtain ⟨k, hk, rfl⟩ := hI.entries x hx
      exact absurd (fin_lt_fin.2 hk) ((positiveMin_error hm).2 _ hx)
    | ok d =>
      refine ⟨_, rfl, push_ne _ _, fun x hx => ?_⟩
      rcases push_mem hx with hx | rfl
      · exact hI.entries x hx
      · exact hI.entries _ (positiveMin_ok hm).1
  · rw [if_neg hz]
    refine ⟨_, rfl, push_ne _ _, fun x hx => ?_⟩
    rcases push_mem hx with hx | rfl
    · split_ifs at hx
      · exact hI.entries x hx
      · simp at hx
    · exact ⟨d, lt_of_le_of_ne h0 fun h => hz (by rw [← h]), rfl⟩

theorem growth_pos (n : Nat) (me : K) : 0 < growth n me := LawfulNumFns.pow_pos _ _ (by norm_num)
theorem bndScale_pos (diagC : Vec K n) (j : Fin n) : 0 < bndScale diagC j := LawfulNumFns.exp_pos _

theorem nn_weightsUpdate {xmean xold : Vec K n} {sigma : K} {diagC : Vec K n} {me : K} {it : Nat} {hist : List (Val K)}
    {valid : Bool} {pen : Pen K n} (hh : ∀ d ∈ hist, NN d) (hw : ∀ j, NN (pen.w j)) (j : Fin n) :
    NN ((weightsUpdate srt xmean xold sigma diagC me it hist valid pen).1 j) := by
  unfold weightsUpdate
  dsimp only
  split_ifs
  · exact (NN.mul_fin (growth_pos n me) ((nn_median hh).fin_mul (by norm_num)))
  · exact NN.mul_fin (growth_pos n me) (hw j)
  · exact (nn_median hh).fin_mul (by norm_num)
  · exact hw j

theorem weightsUpdate_fin {xmean xold : Vec K n} {sigma : K} {diagC : Vec K n} {me : K} {it : Nat} {hist : List (Val K)}
    {valid : Bool} {pen : Pen K n} (hne : hist ≠ []) (hh : ∀ d ∈ hist, ∃ k, 0 < k ∧ d = .fin k)
    (hw : ∀ j, ∃ k, 0 ≤ k ∧ pen.w j = .fin k) (j : Fin n) :
    ∃ k, 0 ≤ k ∧ (weightsUpdate srt xmean xold sigma diagC me it hist valid pen).1 j = .fin k := by
  unfold weightsUpdate
  dsimp only
  obtain ⟨a, ha, ea⟩ := median_fin (srt := srt) hh hne
  obtain ⟨b, hb, eb⟩ := hw j
  have hg := growth_pos n me
  split_ifs
  · rw [ea, fin_mul', fin_mul']; exact ⟨_, by positivity, rfl⟩
  · rw [eb, fin_mul']; exact ⟨_, by positivity, rfl⟩
  · rw [ea, fin_mul']; exact ⟨_, by positivity, rfl⟩
  · exact ⟨b, hb, eb⟩

theorem nn_penalty {diagC : Vec K n} {w : Vec (Val K) n} {valid x : Vec K n} (hw : ∀ j, NN (w j)) :
    NN (penalty diagC w valid x) :=
  nn_vsum fun j => ((hw j).divBy (bndScale_pos diagC j)).fin_mul (sq_nonneg _)

theorem penalty_fin {diagC : Vec K n} {w : Vec (Val K) n} {valid x : Vec K n} (hw : ∀ j, ∃ k, 0 ≤ k ∧ w j = .fin k) :
    ∃ k, 0 ≤ k ∧ penalty diagC w valid x = .fin k := by
  choose u hu0 hu using hw
  have : (fun j => (.fin ((valid j - x j) ^ 2) * Val.divBy (w j) (bndScale diagC j) : Val K)) =
      fun j => .fin ((valid j - x j) ^ 2 * (u j / bndScale diagC j)) := by
    funext j
    rw [hu j, divBy_fin' (bndScale_pos diagC j).ne', fin_mul']
  unfold penalty
  rw [this, vsum_fin]
  exact ⟨_, Finset.sum_nonneg fun j _ => mul_nonneg (sq_nonneg _) (div_nonneg (hu0 j) (bndScale_pos diagC j).le), rfl⟩

theorem penalty_self {diagC : Vec K n} {w : Vec (Val K) n} {x : Vec K n} (hw : ∀ j, ∃ k, 0 ≤ k ∧ w j = .fin k) :
    penalty diagC w x x = .fin 0 := by
  choose u hu0 hu using hw
  have : (fun j => (.fin ((x j - x j) ^ 2) * Val.divBy (w j) (bndScale diagC j) : Val K)) = fun _ => .fin 0 := by
    funext j
    rw [hu j, divBy_fin' (bndScale_pos diagC j).ne', fin_mul', sub_self]
    congr 1; ring
  unfold penalty
  rw [this, vsum_fin]
  simp

theorem clip_box (x : Vec K n) (j : Fin n) : -1 ≤ clip x j ∧ clip x j ≤ 1 := by
  unfold clip
  split_ifs with h1 h2
  · exact ⟨le_refl _, by linarith⟩
  · exact ⟨by linarith, le_refl _⟩
  · exact ⟨not_lt.1 h1, not_lt.1 h2⟩

section
variable {fit : Pop K p n → Fin p → Val K} {arx : Pop K p n} {xmean xold : Vec K n} {sigma : K} {diagC : Vec K n} {me : K} {it : Nat}
  {pen : Pen K n} {r : (Fin p → Val K) × Pop K p n × Pen K n}

theorem penalize_inv (hs : IsArgsort srt) (hI : PenInv p pen) (h : penalize srt fit arx xmean xold sigma diagC me it pen = .ok r) :
    PenInv p r.2.2 := by
  obtain ⟨hist, ⟨hn, hp, hsi, -, hd⟩, h2, -, h4, -⟩ := penalize_ok h
  obtain ⟨a1, a2, a3⟩ := history_ok hs hn hp hsi hd hI h2
  rw [h4]
  exact ⟨a1, a2, a3, nn_weightsUpdate (it := it) (valid := hist.2) (fun d hd => (a2 d hd).1) hI.weights⟩

/-- A penalised value is not below the value it penalises. -/
theorem penalize_ge (hs : IsArgsort srt) (hI : PenInv p pen) (h : penalize srt fit arx xmean xold sigma diagC me it pen = .ok r)
    (i : Fin p) : ¬ r.1 i < fit r.2.1 i := by
  have hw := (penalize_inv hs hI h).weights
  obtain ⟨hist, -, -, h3, -, h5⟩ := penalize_ok h
  rw [h5, h3]
  exact not_add_lt (nn_penalty hw)

theorem penalize_fin (hs : IsArgsort srt) (hf : ∀ X i, ∃ k, fit X i = .fin k) (hne : pen.hist ≠ []) (hI : PenFin pen)
    (h : penalize srt fit arx xmean xold sigma diagC me it pen = .ok r) : PenFin r.2.2 ∧ ∀ i, ∃ k, r.1 i = .fin k := by
  obtain ⟨hist, ⟨hn, hp, hsi, -, hd⟩, h2, -, h4, h5⟩ := penalize_ok h
  obtain ⟨hist', e, a1, a2⟩ := history_fin (srt := srt) hs hn hp hsi hd (hf fun i => clip (arx i)) hne hI
  rw [h2] at e
  cases e
  have hF : PenFin r.2.2 := by rw [h4]; exact ⟨a2, weightsUpdate_fin (it := it) (valid := hist.2) a1 a2 hI.weights⟩
  refine ⟨hF, fun i => ?_⟩
  obtain ⟨k, hk⟩ := hf (fun i => clip (arx i)) i
  obtain ⟨l, -, hl⟩ := penalty_fin (diagC := diagC) (valid := clip (arx i)) (x := arx i) hF.weights
  rw [h5, hk, hl, fin_add']
  exact ⟨_, rfl⟩

/-- A feasible candidate is not penalised. -/
theorem penalize_feasible (hF : PenFin r.2.2) (h : penalize srt fit arx xmean xold sigma diagC me it pen = .ok r) {i : Fin p}
    (hi : clip (arx i) = arx i) : r.1 i = fit r.2.1 i := by
  obtain ⟨hist, -, -, h3, -, h5⟩ := penalize_ok h
  rw [h5, h3, hi, penalty_self hF.weights, Val.add_zero']

/-- With finite values `Penalize` does not fail. -/
theorem penalize_total (hs : IsArgsort srt) (hn : 0 < n) (hp : 0 < p) (hsi : 0 < sigma) (hme : 0 < me) (hd : ∀ j, 0 < diagC j)
    (hf : ∀ X i, ∃ k, fit X i = .fin k) (hne : pen.hist ≠ []) (hI : PenFin pen) :
    ∃ r, penalize srt fit arx xmean xold sigma diagC me it pen = .ok r := by
  obtain ⟨h, e, -⟩ := history_fin (srt := srt) hs hn hp hsi hd (hf fun i => clip (arx i)) hne hI
  unfold penalize
  rw [need_true ⟨hn, hp, hsi, hme, hd⟩, ok_bind']
  dsimp only
  rw [e, ok_bind']
  exact ⟨_, rfl⟩

end

end
end Evo
end Stochopy
