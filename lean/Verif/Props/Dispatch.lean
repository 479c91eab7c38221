import Verif.Lemmas.PyDict
import Verif.Model.Helpers

/-! # Method dispatch (C33)

The statements hold for both `minimize` and `sample`: the two modules have the same text up to names.
-/

set_option linter.unusedSectionVars false

namespace Stochopy.Props
open Stochopy.Helpers
variable {V α : Type}

/-- The callable registered last under the name `m` in a history of register calls. -/
def lastRegistered (h : List (String × Callable V α)) (m : String) : Option (Callable V α) :=
  (h.reverse.find? fun e => e.1 = m).map Prod.snd

/-- The registry after a history of register calls. -/
def registry (h : List (String × Callable V α)) : Registry V α := h.foldl (fun m e => register m e.1 e.2) []

/-- The names of the arguments that `options` cannot give. -/
def reserved : List String := ["fun", "bounds", "x0", "args", "callback"]

theorem registry_get? (h : List (String × Callable V α)) (m : String) :
    Dict.get? (registry h) m = lastRegistered h m := by
  have := Dict.get?_update h ([] : Registry V α) m
  unfold Dict.update at this
  unfold registry register lastRegistered
  rw [this]
  cases h.reverse.find? (fun e => decide (e.1 = m)) <;> rfl

theorem dispatch_of_some (h : List (String × Callable V α)) {m : String} {f : Callable V α}
    (hf : lastRegistered h m = some f) (fn bounds x0 args : V) (options : Dict V) (callback : V) :
    dispatch (registry h) fn bounds x0 args m (some options) callback =
      callKw f (explicit fn bounds x0 args callback) options := by
  unfold dispatch Dict.getItem
  rw [registry_get?, hf]
  rfl

/-- C33: a name under which nothing was registered raises KeyError, whatever the options. -/
theorem C33_unregistered (h : List (String × Callable V α)) (m : String) (fn bounds x0 args : V)
    (options : Option (Dict V)) (callback : V) (hm : ∀ e ∈ h, e.1 ≠ m) :
    dispatch (registry h) fn bounds x0 args m options callback = .error .keyError := by
  have : lastRegistered h m = none := by
    unfold lastRegistered
    rw [Option.map_eq_none_iff, List.find?_eq_none]
    intro e he
    simpa using hm e (List.mem_reverse.1 he)
  unfold dispatch Dict.getItem
  rw [registry_get?, this]
  rfl

/-- C33: registering `f` under `m` makes `m` call `f`, whatever was registered before and whatever is registered
afterwards under other names; `f` is called once, with the five explicit arguments and the options as keywords. -/
theorem C33_forwards (h h' : List (String × Callable V α)) (m : String) (f : Callable V α)
    (hm : ∀ e ∈ h', e.1 ≠ m) (fn bounds x0 args : V) (options : Dict V) (callback : V)
    (hres : ∀ k ∈ reserved, options.get? k = none) :
    ∃ kw : Dict V, dispatch (registry (h ++ (m, f) :: h')) fn bounds x0 args m (some options) callback = f kw ∧
      (∀ k, k ∉ reserved → kw.get? k = options.get? k) ∧ (options.keys.Nodup → kw.keys.Nodup) ∧
      kw.get? "fun" = some fn ∧ kw.get? "bounds" = some bounds ∧ kw.get? "x0" = some x0 ∧
      kw.get? "args" = some args ∧ kw.get? "callback" = some callback := by
  have hl : lastRegistered (h ++ (m, f) :: h') m = some f := by
    unfold lastRegistered
    rw [List.reverse_append, List.reverse_cons, List.append_assoc, List.find?_append]
    have h1 : h'.reverse.find? (fun e => decide (e.1 = m)) = none := by
      rw [List.find?_eq_none]
      intro e he
      simpa using hm e (List.mem_reverse.1 he)
    rw [h1]
    simp
  have hdis : ∀ k ∈ options.keys, k ∉ reserved := by
    intro k hk hr
    have := (Dict.get?_isSome options k).2 hk
    rw [hres k hr] at this
    cases this
  refine ⟨explicit fn bounds x0 args callback ++ options, ?_, ?_, ?_, ?_⟩
  · rw [dispatch_of_some _ hl]
    unfold callKw
    rw [if_neg]
    rw [List.any_eq_true]
    rintro ⟨k, hk, hc⟩
    refine hdis k hk ?_
    rw [List.contains_iff_mem] at hc
    exact hc
  · intro k hk
    simp only [reserved, List.mem_cons, List.not_mem_nil, or_false, not_or] at hk
    obtain ⟨h1, h2, h3, h4, h5⟩ := hk
    simp only [explicit, List.cons_append, List.nil_append, Dict.get?]
    rw [if_neg (Ne.symm h1), if_neg (Ne.symm h2), if_neg (Ne.symm h3), if_neg (Ne.symm h4), if_neg (Ne.symm h5)]
  · intro hn
    have : (explicit fn bounds x0 args callback ++ options).keys = reserved ++ options.keys := by
      simp [Dict.keys, explicit, reserved]
    rw [this, List.nodup_append]
    refine ⟨by decide, hn, ?_⟩
    rintro a ha b hb rfl
    exact hdis _ hb ha
  · simp [explicit, Dict.get?]

/-- C33: options cannot override fun, bounds, x0, args or callback: giving one of them is a TypeError and the method is
not called. -/
theorem C33_reserved (h : List (String × Callable V α)) (m : String) (f : Callable V α)
    (hf : lastRegistered h m = some f) (fn bounds x0 args : V) (options : Dict V) (callback : V) (k : String)
    (hk : k ∈ reserved) (ho : options.get? k ≠ none) :
    dispatch (registry h) fn bounds x0 args m (some options) callback = .error .typeError := by
  rw [dispatch_of_some _ hf]
  unfold callKw
  rw [if_pos]
  rw [List.any_eq_true]
  refine ⟨k, (Dict.get?_isSome options k).1 (Option.isSome_iff_ne_none.2 ho), ?_⟩
  rw [List.contains_iff_mem]
  exact hk

/-- C33: no options and an empty dictionary of options are the same. -/
theorem C33_no_options (m : Registry V α) (fn bounds x0 args : V) (method : String) (callback : V) :
    dispatch m fn bounds x0 args method none callback = dispatch m fn bounds x0 args method (some []) callback := rfl

/-! ## The registered methods -/

variable (dflt : String → String → V) (body : String → (String → Option V) → Except PyErr α)

theorem imported_eq (methods : List (String × List String)) :
    imported methods dflt body =
      registry (methods.map fun q => (q.1, ofSig (signature (dflt q.1) q.2) (body q.1))) := by
  unfold imported registry
  rw [List.foldl_map]

/-- The methods of `minimize` and of `sample`. -/
def methodNames : List String × List String := (["cmaes", "cpso", "de", "na", "pso", "vdcma"], ["hmc", "mcmc"])

/-- C33: after the package is imported `minimize` knows six methods and `sample` two; any other name is a KeyError. -/
theorem C33_unknown (m : String) (fn bounds x0 args : V) (options : Option (Dict V)) (callback : V) :
    (m ∉ methodNames.1 → dispatch (imported optimizers dflt body) fn bounds x0 args m options callback =
      .error .keyError) ∧
    (m ∉ methodNames.2 → dispatch (imported samplers dflt body) fn bounds x0 args m options callback =
      .error .keyError) := by
  have h1 : ∀ q ∈ optimizers, q.1 ∈ methodNames.1 := by decide +kernel
  have h2 : ∀ q ∈ samplers, q.1 ∈ methodNames.2 := by decide +kernel
  constructor <;>
  · intro hm
    rw [imported_eq]
    refine C33_unregistered _ m fn bounds x0 args options callback ?_
    intro e he
    obtain ⟨q, hq, rfl⟩ := List.mem_map.1 he
    rintro rfl
    first
      | exact hm (h1 q hq)
      | exact hm (h2 q hq)

theorem signature_get? (d : String → V) (names : List String) (k : String) :
    Dict.get? (signature d names) k =
      if k ∈ names then some (if k = "fun" ∨ k = "bounds" then none else some (d k)) else none := by
  unfold signature
  induction names with
  | nil => simp [Dict.get?]
  | cons a t ih =>
    simp only [List.map_cons, Dict.get?]
    by_cases h : a = k
    · subst h; simp
    · rw [if_neg h, ih]
      simp only [List.mem_cons]
      by_cases hk : k ∈ t
      · simp [hk]
      · rw [if_neg hk, if_neg]
        rintro (rfl | h1)
        · exact h rfl
        · exact hk h1

theorem lastRegistered_imported (methods : List (String × List String)) (hn : (methods.map Prod.fst).Nodup)
    {m : String} {names : List String} (hm : (m, names) ∈ methods) :
    lastRegistered (methods.map fun q => (q.1, ofSig (signature (dflt q.1) q.2) (body q.1))) m =
      some (ofSig (signature (dflt m) names) (body m)) := by
  unfold lastRegistered
  have key : ∀ l : List (String × List String), (l.map Prod.fst).Nodup → (m, names) ∈ l →
      l.find? (fun q => decide (q.1 = m)) = some (m, names) := by
    intro l
    induction l with
    | nil => intro _ h; simp at h
    | cons q t ih =>
      intro hn hq
      simp only [List.map_cons, List.nodup_cons] at hn
      rcases List.mem_cons.1 hq with rfl | hq
      · simp
      · rw [List.find?_cons_of_neg, ih hn.2 hq]
        simp only [decide_eq_true_eq]
        rintro rfl
        exact hn.1 (List.mem_map.2 ⟨_, hq, rfl⟩)
  rw [← List.map_reverse, List.find?_map]
  have := key methods.reverse (by rw [List.map_reverse]; exact List.nodup_reverse.2 hn) (List.mem_reverse.2 hm)
  have hfun : ((fun e : String × Callable V α => decide (e.1 = m)) ∘
      fun q : String × List String => (q.1, ofSig (signature (dflt q.1) q.2) (body q.1))) =
      fun q => decide (q.1 = m) := rfl
  rw [hfun, this]
  rfl

/-- What `minimize` and `sample` do with a method whose parameters are `names`. -/
theorem dispatch_imported (methods : List (String × List String)) (hn : (methods.map Prod.fst).Nodup)
    {m : String} {names : List String} (hm : (m, names) ∈ methods) (hr : ∀ k ∈ reserved, k ∈ names)
    (fn bounds x0 args : V) (options : Dict V) (callback : V) :
    dispatch (imported methods dflt body) fn bounds x0 args m (some options) callback =
      if ∀ k ∈ options.keys, k ∈ names ∧ k ∉ reserved then
        body m fun k =>
          if k = "fun" then some fn else if k = "bounds" then some bounds else if k = "x0" then some x0
          else if k = "args" then some args else if k = "callback" then some callback
          else if k ∈ names then some ((options.get? k).getD (dflt m k)) else none
      else .error .typeError := by
  rw [imported_eq, dispatch_of_some _ (lastRegistered_imported dflt body methods hn hm)]
  have hkeys : (explicit fn bounds x0 args callback ++ options).keys = reserved ++ options.keys := by
    simp [Dict.keys, explicit, reserved]
  have hsig : ∀ d : String → V, (signature d names).map Prod.fst = names := by
    intro d; unfold signature; rw [List.map_map]; exact List.map_id _
  have hlk : ∀ k, Dict.get? (explicit fn bounds x0 args callback ++ options) k =
      if k = "fun" then some fn else if k = "bounds" then some bounds else if k = "x0" then some x0
      else if k = "args" then some args else if k = "callback" then some callback else options.get? k := by
    intro k
    simp only [explicit, List.cons_append, List.nil_append, Dict.get?, eq_comm]
  by_cases hgood : ∀ k ∈ options.keys, k ∈ names ∧ k ∉ reserved
  · rw [if_pos hgood]
    unfold callKw
    rw [if_neg]
    · unfold ofSig
      rw [if_neg, if_neg]
      · congr 1
        funext k
        rw [hlk, signature_get?]
        by_cases h1 : k = "fun"
        · simp [h1]
        by_cases h2 : k = "bounds"
        · simp [h2]
        by_cases h3 : k = "x0"
        · simp [h3]
        by_cases h4 : k = "args"
        · simp [h4]
        by_cases h5 : k = "callback"
        · simp [h5]
        simp only [h1, h2, h3, h4, h5, if_false, or_self]
        cases ho : options.get? k with
        | some v =>
          have := (hgood k ((Dict.get?_isSome options k).1 (by rw [ho]; rfl))).1
          simp [this]
        | none =>
          split_ifs <;> rfl
      · rw [List.any_eq_true]
        rintro ⟨q, hq, hb⟩
        unfold signature at hq
        obtain ⟨k, hk, rfl⟩ := List.mem_map.1 hq
        rw [hlk] at hb
        by_cases h1 : k = "fun"
        · simp [h1] at hb
        by_cases h2 : k = "bounds"
        · simp [h2] at hb
        simp [h1, h2] at hb
      · rw [hkeys, List.any_eq_true]
        rintro ⟨k, hk, hb⟩
        rw [hsig] at hb
        have : k ∈ names := by
          rcases List.mem_append.1 hk with hk | hk
          · exact hr k hk
          · exact (hgood k hk).1
        simp [this] at hb
    · rw [List.any_eq_true]
      rintro ⟨k, hk, hb⟩
      refine (hgood k hk).2 ?_
      rw [List.contains_iff_mem] at hb
      exact hb
  · rw [if_neg hgood]
    push Not at hgood
    obtain ⟨k, hmem, hkn⟩ := hgood
    unfold callKw
    by_cases hkr : k ∈ reserved
    · rw [if_pos]
      rw [List.any_eq_true]
      refine ⟨k, hmem, ?_⟩
      rw [List.contains_iff_mem]
      exact hkr
    · have hknn : k ∉ names := fun h => hkr (hkn h)
      split_ifs
      · rfl
      · unfold ofSig
        rw [if_pos]
        rw [hkeys, List.any_eq_true]
        refine ⟨k, List.mem_append.2 (Or.inr hmem), ?_⟩
        rw [hsig]
        simp [hknn]

/-- C33, the six optimizers: an option that the method does not have, or one of the five explicit arguments among the
options, is a TypeError; otherwise the method runs with the explicit arguments, the options given, and its own defaults
for the others. -/
theorem C33_minimize {m : String} {names : List String} (hm : (m, names) ∈ optimizers)
    (fn bounds x0 args : V) (options : Dict V) (callback : V) :
    dispatch (imported optimizers dflt body) fn bounds x0 args m (some options) callback =
      if ∀ k ∈ options.keys, k ∈ names ∧ k ∉ reserved then
        body m fun k =>
          if k = "fun" then some fn else if k = "bounds" then some bounds else if k = "x0" then some x0
          else if k = "args" then some args else if k = "callback" then some callback
          else if k ∈ names then some ((options.get? k).getD (dflt m k)) else none
      else .error .typeError := by
  refine dispatch_imported dflt body optimizers (by decide +kernel) hm ?_ fn bounds x0 args options callback
  have : ∀ q ∈ optimizers, ∀ k ∈ reserved, k ∈ q.2 := by decide +kernel
  exact this _ hm

/-- C33, the two samplers. -/
theorem C33_sample {m : String} {names : List String} (hm : (m, names) ∈ samplers)
    (fn bounds x0 args : V) (options : Dict V) (callback : V) :
    dispatch (imported samplers dflt body) fn bounds x0 args m (some options) callback =
      if ∀ k ∈ options.keys, k ∈ names ∧ k ∉ reserved then
        body m fun k =>
          if k = "fun" then some fn else if k = "bounds" then some bounds else if k = "x0" then some x0
          else if k = "args" then some args else if k = "callback" then some callback
          else if k ∈ names then some ((options.get? k).getD (dflt m k)) else none
      else .error .typeError := by
  refine dispatch_imported dflt body samplers (by decide +kernel) hm ?_ fn bounds x0 args options callback
  have : ∀ q ∈ samplers, ∀ k ∈ reserved, k ∈ q.2 := by decide +kernel
  exact this _ hm

/-- C33 on concrete calls: a method registered twice, an override of `fun`, an option passed on. -/
example :
    let f : Callable Nat Nat := fun kw => .ok ((kw.get? "maxiter").getD 0)
    let g : Callable Nat Nat := fun _ => .ok 7
    dispatch (registry [("de", g), ("na", g), ("de", f)]) 0 0 0 0 "de" (some [("maxiter", 5)]) 0 = .ok 5 ∧
    dispatch (registry [("de", g), ("na", g), ("de", f)]) 0 0 0 0 "de" (some [("fun", 5)]) 0 = .error .typeError ∧
    dispatch (registry [("de", g), ("na", g), ("de", f)]) 0 0 0 0 "xx" (some [("fun", 5)]) 0 = .error .keyError := by
  decide +kernel

end Stochopy.Props
