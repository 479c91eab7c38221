import Verif.Lemmas.Val
import Mathlib.Data.Fintype.EquivFin
import Mathlib.Data.Fintype.Card

/-! An (executable, stable) argsort exists: the assumption `IsArgsort` is satisfiable over every linear order. -/

namespace Stochopy
variable {K : Type} [LinearOrder K]

instance (a b : Val K) : Decidable (sortLe a b) := by unfold sortLe; infer_instance

section
variable {m : Nat} (v : Fin m → Val K)

/-- `i` comes before `j` in the stable order. -/
def before (i j : Fin m) : Prop := ¬ sortLe (v j) (v i) ∨ (sortLe (v i) (v j) ∧ i < j)

instance (i j : Fin m) : Decidable (before v i j) := by unfold before; infer_instance

theorem before_irrefl (i : Fin m) : ¬ before v i i := by
  rintro (h | ⟨_, h⟩)
  · exact h (sortLe_refl _)
  · exact lt_irrefl _ h

theorem before_trans {i j k : Fin m} (h1 : before v i j) (h2 : before v j k) : before v i k := by
  have tot := fun a b : Fin m => sortLe_total (v a) (v b)
  have tr := fun {a b c : Fin m} (h : sortLe (v a) (v b)) (h' : sortLe (v b) (v c)) => sortLe_trans h h'
  rcases h1 with h1 | ⟨h1, h1'⟩ <;> rcases h2 with h2 | ⟨h2, h2'⟩
  · left; intro h; exact h1 (tr ((tot j k).resolve_right h2) h)
  · left; intro h; exact h1 (tr h2 h)
  · left; intro h; exact h2 (tr h h1)
  · exact Or.inr ⟨tr h1 h2, lt_trans h1' h2'⟩

theorem before_total {i j : Fin m} (h : i ≠ j) : before v i j ∨ before v j i := by
  by_cases h1 : sortLe (v j) (v i)
  · by_cases h2 : sortLe (v i) (v j)
    · rcases lt_or_gt_of_ne h with h | h
      · exact Or.inl (Or.inr ⟨h2, h⟩)
      · exact Or.inr (Or.inr ⟨h1, h⟩)
    · exact Or.inr (Or.inl h2)
  · exact Or.inl (Or.inl h1)

/-- Position of `i` in the sorted array. -/
def rankOf (i : Fin m) : Nat := (List.finRange m).countP (fun j => decide (before v j i))

theorem countP_lt_of_imp {α : Type} {p q : α → Bool} (himp : ∀ a, p a = true → q a = true) :
    ∀ (l : List α) (a : α), a ∈ l → p a = false → q a = true → l.countP p < l.countP q := by
  intro l
  induction l with
  | nil => intro a h; simp at h
  | cons b l ih =>
    intro a hm hp hq
    have hle : l.countP p ≤ l.countP q := List.countP_mono_left (fun x _ => himp x)
    rcases List.mem_cons.1 hm with rfl | hm
    · rw [List.countP_cons_of_neg (by simp [hp]), List.countP_cons_of_pos (by simp [hq])]; omega
    · have := ih a hm hp hq
      by_cases hb : p b = true
      · rw [List.countP_cons_of_pos hb, List.countP_cons_of_pos (himp b hb)]; omega
      · rw [List.countP_cons_of_neg hb]
        by_cases hqb : q b = true
        · rw [List.countP_cons_of_pos hqb]; omega
        · rw [List.countP_cons_of_neg hqb]; omega

theorem rankOf_lt_of_before {i j : Fin m} (h : before v i j) : rankOf v i < rankOf v j := by
  refine countP_lt_of_imp ?_ _ i (List.mem_finRange i) ?_ ?_
  · intro a ha; simp only [decide_eq_true_eq] at ha ⊢; exact before_trans v ha h
  · simpa using before_irrefl v i
  · simpa using h

theorem rankOf_lt (i : Fin m) : rankOf v i < m := by
  have : rankOf v i < (List.finRange m).countP (fun _ => true) :=
    countP_lt_of_imp (by simp) _ i (List.mem_finRange i) (by simpa using before_irrefl v i) rfl
  simpa using this

theorem rankOf_inj {i j : Fin m} (h : rankOf v i = rankOf v j) : i = j := by
  by_contra hne
  rcases before_total v hne with h' | h' <;> have := rankOf_lt_of_before v h' <;> omega

/-- The rank as a map of `Fin m`. -/
def rank (i : Fin m) : Fin m := ⟨rankOf v i, rankOf_lt v i⟩

theorem rank_bijective : Function.Bijective (rank v) :=
  Finite.injective_iff_bijective.1 fun _ _ h => rankOf_inj v (Fin.mk.inj h)

/-- Which entry has rank `k` (found by search). -/
def atRank (k : Fin m) : Fin m := ((List.finRange m).find? (fun i => decide (rank v i = k))).getD k

theorem rank_atRank (k : Fin m) : rank v (atRank v k) = k := by
  obtain ⟨i, hi⟩ := (rank_bijective v).2 k
  unfold atRank
  cases h : (List.finRange m).find? (fun i => decide (rank v i = k)) with
  | none =>
    rw [List.find?_eq_none] at h
    exact absurd hi (by simpa using h i (List.mem_finRange i))
  | some j => simpa using List.find?_some h

end

/-- A stable argsort. -/
def stableArgsort : Argsort K := fun _ v =>
  { toFun := atRank v
    invFun := rank v
    left_inv := rank_atRank v
    right_inv := fun i => (rank_bijective v).1 (rank_atRank v (rank v i)) }

theorem isArgsort_stable : IsArgsort (stableArgsort : Argsort K) := by
  intro m v a b hab
  show sortLe (v (atRank v a)) (v (atRank v b))
  by_contra h
  have hb : before v (atRank v b) (atRank v a) := Or.inl h
  have := rankOf_lt_of_before v hb
  have h1 : rankOf v (atRank v a) = a := congrArg Fin.val (rank_atRank v a)
  have h2 : rankOf v (atRank v b) = b := congrArg Fin.val (rank_atRank v b)
  rw [h1, h2] at this
  exact absurd hab (by simpa using this)

end Stochopy
