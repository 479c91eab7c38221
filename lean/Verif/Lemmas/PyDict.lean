import Verif.Model.PyDict
import Verif.Model.Result
import Verif.Spec.Result
import Mathlib.Data.String.Basic
import Mathlib.Data.List.Sort

/-! Python dictionaries: lookup laws. -/

namespace Stochopy
namespace Dict
variable {V : Type}

theorem get?_set (d : Dict V) (k k' : String) (v : V) :
    (d.set k v).get? k' = if k = k' then some v else d.get? k' := by
  induction d with
  | nil => simp [set, get?]
  | cons e d ih =>
    obtain ⟨a, b⟩ := e
    unfold set
    by_cases h : a = k
    · rw [if_pos h]
      subst h
      simp only [get?]
      split_ifs <;> rfl
    · rw [if_neg h]
      simp only [get?]
      rw [ih]
      by_cases h1 : a = k'
      · rw [if_pos h1, if_pos h1, if_neg]
        rintro rfl; exact h h1
      · rw [if_neg h1, if_neg h1]

theorem keys_set (d : Dict V) (k : String) (v : V) (k' : String) : k' ∈ (d.set k v).keys ↔ k' = k ∨ k' ∈ d.keys := by
  induction d with
  | nil => simp [set, keys]
  | cons e d ih =>
    obtain ⟨a, b⟩ := e
    unfold set
    by_cases h : a = k
    · rw [if_pos h]; subst h; simp [keys]
    · rw [if_neg h]
      simp only [keys, List.map_cons, List.mem_cons] at ih ⊢
      rw [ih]
      tauto

theorem nodup_set {d : Dict V} (h : d.keys.Nodup) (k : String) (v : V) : (d.set k v).keys.Nodup := by
  induction d with
  | nil => simp [set, keys]
  | cons e d ih =>
    obtain ⟨a, b⟩ := e
    simp only [keys, List.map_cons, List.nodup_cons] at h
    unfold set
    by_cases hk : a = k
    · rw [if_pos hk]
      simp only [keys, List.map_cons, List.nodup_cons]
      exact h
    · rw [if_neg hk]
      simp only [keys, List.map_cons, List.nodup_cons]
      refine ⟨?_, ih h.2⟩
      intro hm
      rcases (keys_set d k v a).1 hm with h1 | h1
      · exact hk h1
      · exact h.1 h1

theorem get?_isSome (d : Dict V) (k : String) : (d.get? k).isSome ↔ k ∈ d.keys := by
  induction d with
  | nil => simp [get?, keys]
  | cons e d ih =>
    obtain ⟨a, b⟩ := e
    simp only [get?, keys, List.map_cons, List.mem_cons] at ih ⊢
    by_cases h : a = k
    · rw [if_pos h]; simp [h]
    · rw [if_neg h, ih]
      constructor
      · exact Or.inr
      · rintro (rfl | h1)
        · exact absurd rfl h
        · exact h1

theorem get?_filter (d : Dict V) (k k' : String) :
    Dict.get? (d.filter fun e => decide (e.1 ≠ k)) k' = if k = k' then none else d.get? k' := by
  induction d with
  | nil => simp [get?]
  | cons e d ih =>
    obtain ⟨a, b⟩ := e
    by_cases h : a = k
    · rw [List.filter_cons_of_neg (by simp [h]), ih]
      subst h
      simp only [get?]
      split_ifs <;> rfl
    · rw [List.filter_cons_of_pos (by simp [h])]
      simp only [get?]
      rw [ih]
      by_cases h1 : a = k'
      · rw [if_pos h1, if_neg, if_pos h1]
        rintro rfl; exact h h1
      · rw [if_neg h1, if_neg h1]

theorem mem_of_get? {d : Dict V} {k : String} {v : V} (h : d.get? k = some v) : (k, v) ∈ d := by
  induction d with
  | nil => simp [get?] at h
  | cons e d ih =>
    obtain ⟨a, b⟩ := e
    simp only [get?] at h
    by_cases hk : a = k
    · rw [if_pos hk] at h; subst hk
      rw [Option.some.inj h]; simp
    · rw [if_neg hk] at h
      exact List.mem_cons_of_mem _ (ih h)

theorem get?_of_mem {d : Dict V} (hd : d.keys.Nodup) {k : String} {v : V} (h : (k, v) ∈ d) : d.get? k = some v := by
  induction d with
  | nil => simp at h
  | cons e d ih =>
    obtain ⟨a, b⟩ := e
    simp only [keys, List.map_cons, List.nodup_cons] at hd
    rcases List.mem_cons.1 h with h | h
    · simp only [Prod.mk.injEq] at h
      simp [get?, h.1, h.2]
    · simp only [get?]
      rw [if_neg]
      · exact ih hd.2 h
      · rintro rfl
        exact hd.1 (List.mem_map.2 ⟨_, h, rfl⟩)

theorem get?_update (kvs : List (String × V)) (d : Dict V) (k : String) :
    (d.update kvs).get? k = match kvs.reverse.find? fun kv => kv.1 = k with
      | some kv => some kv.2
      | none => d.get? k := by
  induction kvs generalizing d with
  | nil => simp [update]
  | cons e t ih =>
    have h1 : d.update (e :: t) = (d.set e.1 e.2).update t := rfl
    rw [h1, ih]
    rw [List.reverse_cons, List.find?_append]
    cases hf : t.reverse.find? (fun kv => decide (kv.1 = k)) with
    | some kv => simp
    | none =>
      simp only [Option.none_or, get?_set]
      by_cases h : e.1 = k <;> simp [h]

theorem nodup_update (kvs : List (String × V)) {d : Dict V} (h : d.keys.Nodup) : (d.update kvs).keys.Nodup := by
  induction kvs generalizing d with
  | nil => exact h
  | cons e t ih => exact ih (nodup_set h e.1 e.2)

end Dict

namespace Res
open Spec
variable {V : Type}

theorem delItem_eq (r : Dict V) (k k' : String) :
    (match r.delItem k with | .ok r' => r' | .error _ => r).get? k' = if k = k' then none else r.get? k' := by
  unfold Dict.delItem
  cases h : r.get? k with
  | none =>
    dsimp only
    split_ifs with hk
    · rw [← hk, h]
    · rfl
  | some v => exact Dict.get?_filter r k k'

theorem delItem_nodup {r : Dict V} (h : r.keys.Nodup) (k : String) :
    (match r.delItem k with | .ok r' => r' | .error _ => r).keys.Nodup := by
  unfold Dict.delItem
  cases hk : r.get? k with
  | none => exact h
  | some v => exact h.sublist (List.Sublist.map _ List.filter_sublist)

theorem exec_get? (r : Dict V) (op : Op V) (k : String) : (exec r op).get? k = op.effect k (r.get? k) := by
  cases op with
  | setAttr k' v => exact Dict.get?_set r k' k v
  | setItem k' v => exact Dict.get?_set r k' k v
  | update kvs => exact Dict.get?_update kvs r k
  | delAttr k' => exact delItem_eq r k' k
  | delItem k' => exact delItem_eq r k' k

theorem exec_nodup {r : Dict V} (h : r.keys.Nodup) (op : Op V) : (exec r op).keys.Nodup := by
  cases op with
  | setAttr k' v => exact Dict.nodup_set h k' v
  | setItem k' v => exact Dict.nodup_set h k' v
  | update kvs => exact Dict.nodup_update kvs h
  | delAttr k' => exact delItem_nodup h k'
  | delItem k' => exact delItem_nodup h k'

theorem run_get? (h : List (Op V)) (k : String) : (h.foldl exec []).get? k = content h k := by
  unfold content
  have key : ∀ (h : List (Op V)) (r : Dict V), (h.foldl exec r).get? k = h.foldl (Op.effect k) (r.get? k) := by
    intro h
    induction h with
    | nil => intro r; rfl
    | cons op t ih => intro r; rw [List.foldl_cons, List.foldl_cons, ih, exec_get?]
  exact key h []

theorem run_nodup (h : List (Op V)) : (h.foldl exec ([] : Dict V)).keys.Nodup := by
  have key : ∀ (h : List (Op V)) (r : Dict V), r.keys.Nodup → (h.foldl exec r).keys.Nodup := by
    intro h
    induction h with
    | nil => intro r hr; exact hr
    | cons op t ih => intro r hr; exact ih _ (exec_nodup hr op)
  exact key h [] (by simp [Dict.keys])

theorem foldl_max_ge (l : List Nat) (a : Nat) : a ≤ l.foldl max a ∧ ∀ x ∈ l, x ≤ l.foldl max a := by
  induction l generalizing a with
  | nil => simp
  | cons b l ih =>
    obtain ⟨h1, h2⟩ := ih (max a b)
    refine ⟨le_trans (le_max_left _ _) h1, ?_⟩
    intro x hx
    rcases List.mem_cons.1 hx with rfl | hx
    · exact le_trans (le_max_right _ _) h1
    · exact h2 x hx

theorem foldl_max_mem (l : List Nat) (a : Nat) : l.foldl max a = a ∨ l.foldl max a ∈ l := by
  induction l generalizing a with
  | nil => simp
  | cons b l ih =>
    rw [List.foldl_cons]
    rcases ih (max a b) with h | h
    · rw [h]
      rcases le_total a b with hab | hab
      · rw [max_eq_right hab]; exact Or.inr (by simp)
      · rw [max_eq_left hab]; exact Or.inl rfl
    · exact Or.inr (List.mem_cons_of_mem _ h)

theorem sortedItems_perm (r : Dict V) : (sortedItems r).Perm r := List.perm_insertionSort _ _

theorem sortedItems_sorted (r : Dict V) : (sortedItems r).Pairwise fun a b => a.1 ≤ b.1 := by
  haveI : Std.Total (fun a b : String × V => a.1 ≤ b.1) := ⟨fun a b => le_total a.1 b.1⟩
  haveI : IsTrans (String × V) (fun a b => a.1 ≤ b.1) := ⟨fun a b c => le_trans⟩
  exact List.pairwise_insertionSort _ r

end Res
end Stochopy
