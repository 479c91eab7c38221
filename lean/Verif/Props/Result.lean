import Verif.Lemmas.PyDict

/-! # Result objects (C34)

`h` is any sequence of operations applied to an empty result, `cls` tells which names are attributes of the class.
-/

namespace Stochopy.Props
open Stochopy.Res Spec
variable {V : Type}

/-- C34, reading: attribute and item access both return the last value stored under the name (whether it was stored as
an attribute or as an item) and raise AttributeError resp. KeyError if there is none; class attributes win. -/
theorem C34_access (cls : String → Bool) (h : List (Op V)) (k : String) :
    (cls k = false → getAttr cls (h.foldl exec []) k = match content h k with
      | some v => .ok (.item v)
      | none => .error .attributeError) ∧
    (cls k = true → getAttr cls (h.foldl exec []) k = .ok (.ofClass k)) ∧
    ((h.foldl exec []).getItem k = match content h k with
      | some v => .ok v
      | none => .error .keyError) := by
  have hi : (h.foldl exec []).getItem k = match content h k with
      | some v => .ok v
      | none => .error .keyError := by
    unfold Dict.getItem
    rw [run_get?]
    cases content h k <;> rfl
  refine ⟨?_, ?_, hi⟩
  · intro hc
    unfold getAttr
    rw [if_neg (by simp [hc]), hi]
    cases content h k <;> rfl
  · intro hc
    unfold getAttr
    rw [if_pos hc]

/-- C34, deleting: deleting a name, as an attribute or as an item, raises KeyError exactly if nothing is stored under
it, and afterwards the name is missing and the others are unchanged. -/
theorem C34_delete (h : List (Op V)) (k : String) :
    (delAttr (h.foldl exec []) k = .error .keyError ↔ content h k = none) ∧
    (∀ r', delAttr (h.foldl exec []) k = .ok r' → r'.get? k = none ∧ ∀ k', k' ≠ k → r'.get? k' = content h k') ∧
    Dict.delItem (h.foldl exec []) k = delAttr (h.foldl exec []) k := by
  have hd : delAttr (h.foldl exec []) k = match content h k with
      | some _ => .ok ((h.foldl exec []).filter fun e => e.1 ≠ k)
      | none => .error .keyError := by
    unfold delAttr Dict.delItem
    rw [run_get?]
    cases content h k <;> rfl
  refine ⟨?_, ?_, rfl⟩
  · rw [hd]
    cases content h k <;> simp
  · intro r' hr
    rw [hd] at hr
    cases hc : content h k with
    | none => rw [hc] at hr; cases hr
    | some v =>
      rw [hc] at hr
      cases hr
      refine ⟨?_, ?_⟩
      · rw [Dict.get?_filter, if_pos rfl]
      · intro k' hk
        rw [Dict.get?_filter, if_neg (Ne.symm hk), run_get?]

/-- C34, listing: `dir` lists every stored name once, and nothing else. -/
theorem C34_dir (h : List (Op V)) :
    (dir (h.foldl exec [])).Nodup ∧ ∀ k, k ∈ dir (h.foldl exec []) ↔ content h k ≠ none := by
  refine ⟨run_nodup h, ?_⟩
  intro k
  rw [← run_get?, ← Option.isSome_iff_ne_none]
  exact (Dict.get?_isSome _ k).symm

/-- C34, printing: the text of a result with no stored name is `Class()`.  Otherwise it has one line for every stored
name except xall and funall, in strictly increasing order of the names, each made of the name, a colon, and the text of
the value stored under it; the names are right-justified to one more than the length of the longest stored name. -/
theorem C34_repr (cls : String) (rep : V → String) (h : List (Op V)) :
    ((∀ k, content h k = none) → Res.repr cls rep (h.foldl exec []) = cls ++ "()") ∧
    ((∃ k, content h k ≠ none) →
      ∃ (W : Nat) (items : List (String × V)),
        (∀ k, content h k ≠ none → k.length + 1 ≤ W) ∧ (∃ k, content h k ≠ none ∧ k.length + 1 = W) ∧
        (∀ k v, (k, v) ∈ items ↔ content h k = some v ∧ k ≠ "xall" ∧ k ≠ "funall") ∧
        items.Pairwise (fun a b => a.1 < b.1) ∧
        Res.repr cls rep (h.foldl exec []) = "\n".intercalate (items.map fun kv =>
          String.ofList (List.replicate (W - kv.1.length) ' ') ++ kv.1 ++ ": " ++ rep kv.2)) := by
  have hdir : ∀ k, k ∈ (h.foldl exec ([] : Dict V)).keys ↔ content h k ≠ none := (C34_dir h).2
  have hnd : (h.foldl exec ([] : Dict V)).keys.Nodup := run_nodup h
  constructor
  · intro h0
    unfold Res.repr
    rw [if_pos]
    rw [List.isEmpty_iff, List.eq_nil_iff_forall_not_mem]
    intro k hk
    exact (hdir k).1 hk (h0 k)
  · rintro ⟨k0, hk0⟩
    set r := h.foldl exec ([] : Dict V) with hr
    refine ⟨width r, (sortedItems r).filter fun kv => !(["xall", "funall"].contains kv.1), ?_, ?_, ?_, ?_, ?_⟩
    · intro k hk
      have := (foldl_max_ge (r.keys.map String.length) 0).2 k.length (List.mem_map.2 ⟨k, (hdir k).2 hk, rfl⟩)
      unfold width; omega
    · rcases foldl_max_mem (r.keys.map String.length) 0 with hm | hm
      · refine ⟨k0, hk0, ?_⟩
        have := (foldl_max_ge (r.keys.map String.length) 0).2 k0.length (List.mem_map.2 ⟨k0, (hdir k0).2 hk0, rfl⟩)
        unfold width; omega
      · obtain ⟨k, hk, he⟩ := List.mem_map.1 hm
        exact ⟨k, (hdir k).1 hk, by unfold width; omega⟩
    · intro k v
      rw [List.mem_filter, (sortedItems_perm r).mem_iff]
      constructor
      · rintro ⟨h1, h2⟩
        refine ⟨?_, ?_⟩
        · rw [← run_get?]; exact Dict.get?_of_mem hnd h1
        · simpa using h2
      · rintro ⟨h1, h2⟩
        rw [← run_get?] at h1
        exact ⟨Dict.mem_of_get? h1, by simpa using h2⟩
    · have h1 := sortedItems_sorted r
      have h2 : (sortedItems r).Pairwise fun a b => a.1 ≠ b.1 := by
        have : ((sortedItems r).map Prod.fst).Nodup := ((sortedItems_perm r).map Prod.fst).nodup_iff.2 hnd
        exact List.pairwise_map.1 this
      exact ((h1.and h2).imp fun h => lt_of_le_of_ne h.1 h.2).filter _
    · unfold Res.repr
      rw [if_neg]
      · unfold reprLines rjust
        simp only [String.ofList_append, String.ofList_toList]
      · intro he
        rw [List.isEmpty_iff] at he
        have := (hdir k0).2 hk0
        rw [he] at this
        simp at this

/-- C34 on a concrete history. -/
example : content [.setAttr "nit" 1, .setItem "x" 2, .update [("nit", 5), ("xall", 7)], .delAttr "x"] "nit" = some 5 ∧
    content [.setAttr "nit" 1, .setItem "x" 2, .update [("nit", 5), ("xall", 7)], .delAttr "x"] "x" = none ∧
    Res.repr "OptimizeResult" (fun n : Nat => if n = 3 then "three" else "some")
      ([.setAttr "nit" 1, .setItem "x" 2, .update [("nit", 5), ("xall", 7)], .setAttr "fun" 3].foldl exec []) =
      "  fun: three\n  nit: some\n    x: some" := by
  decide +kernel

end Stochopy.Props
