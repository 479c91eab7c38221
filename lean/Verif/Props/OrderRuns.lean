import Verif.Props.OrderSampler
import Verif.Props.NARun
import Verif.Props.Chains
import Verif.Props.EvoRuns

/-! # C104: runs that depend on the order of the variables, and concrete cases -/

set_option linter.unusedSectionVars false

namespace Stochopy.Props
open Stochopy Spec Concrete

/-! ## A generator whose numbers can be dealt in another order

The state holds the numbers still to come, one list for each kind. -/

structure Supply where
  u : Nat → ℚ
  z : Nat → ℚ
  i : Nat → Nat
  s : (p : Nat) → Nat → Equiv.Perm (Fin p)

/-- All but the first. -/
def later {α : Type} (f : Nat → α) : Nat → α := fun k => f (k + 1)

def supplyRng : Rng Supply ℚ where
  seed _ := { u := fun _ => 0, z := fun _ => 0, i := fun _ => 0, s := fun _ _ => Equiv.refl _ }
  rand g := (g.u 0, { g with u := later g.u })
  randn g := (g.z 0, { g with z := later g.z })
  randint n g := (g.i 0 % n, { g with i := later g.i })
  perm p g := (g.s p 0, { g with s := fun q k => if q = p then g.s q (k + 1) else g.s q k })

/-- Every group of `n` items in another order. -/
def regroup {α : Type} {n : Nat} (π : Equiv.Perm (Fin n)) (f : Nat → α) : Nat → α := fun k => f (n * (k / n) + natPerm π (k % n))

theorem regroup_first {α : Type} {n : Nat} (π : Equiv.Perm (Fin n)) (f : Nat → α) (j : Fin n) : regroup π f j = f (π j) := by
  unfold regroup
  rw [Nat.div_eq_of_lt j.2, Nat.mod_eq_of_lt j.2, natPerm_val, Nat.mul_zero, Nat.zero_add]

theorem regroup_rest {α : Type} {n : Nat} (π : Equiv.Perm (Fin n)) (f : Nat → α) :
    (fun k => regroup π f (k + n)) = regroup π fun k => f (k + n) := by
  funext k
  unfold regroup
  rcases Nat.eq_zero_or_pos n with rfl | hn
  · simp
  · rw [Nat.add_div_right _ hn, Nat.add_mod_right, Nat.mul_succ]
    congr 1
    omega

/-- The state from which the numbers are dealt to `n` variables in another order; `p` is the number of individuals. -/
def Supply.deal {n : Nat} (π : Equiv.Perm (Fin n)) (p : Nat) (g : Supply) : Supply :=
  { u := regroup π g.u, z := regroup π g.z, i := fun k => natPerm π.symm (g.i k % n), s := fun q => if q = p then regroup π (g.s q) else g.s q }

/-- Only the normal numbers. -/
def Supply.dealNormals {n : Nat} (π : Equiv.Perm (Fin n)) (g : Supply) : Supply := { g with z := regroup π g.z }

theorem supply_rand (n : Nat) (g : Supply) :
    drawVec supplyRng.rand n g = (fun j : Fin n => g.u j, { g with u := fun k => g.u (k + n) }) := by
  have key : ∀ m, (fun g : Supply => (supplyRng.rand g).2)^[m] g = { g with u := fun k => g.u (k + m) } := by
    intro m
    induction m with
    | zero => rfl
    | succ m ih =>
      rw [Function.iterate_succ_apply', ih]
      show Supply.mk (fun k => g.u (k + 1 + m)) _ _ _ = Supply.mk (fun k => g.u (k + (m + 1))) _ _ _
      congr 1
      funext k
      congr 1
      omega
  refine Prod.ext (funext fun j => ?_) (key n)
  show (supplyRng.rand ((fun g : Supply => (supplyRng.rand g).2)^[j.val] g)).1 = _
  rw [key]
  exact congrArg g.u (Nat.zero_add _)

theorem supply_randn (n : Nat) (g : Supply) :
    drawVec supplyRng.randn n g = (fun j : Fin n => g.z j, { g with z := fun k => g.z (k + n) }) := by
  have key : ∀ m, (fun g : Supply => (supplyRng.randn g).2)^[m] g = { g with z := fun k => g.z (k + m) } := by
    intro m
    induction m with
    | zero => rfl
    | succ m ih =>
      rw [Function.iterate_succ_apply', ih]
      show Supply.mk _ (fun k => g.z (k + 1 + m)) _ _ = Supply.mk _ (fun k => g.z (k + (m + 1))) _ _
      congr 1
      funext k
      congr 1
      omega
  refine Prod.ext (funext fun j => ?_) (key n)
  show (supplyRng.randn ((fun g : Supply => (supplyRng.randn g).2)^[j.val] g)).1 = _
  rw [key]
  exact congrArg g.z (Nat.zero_add _)

theorem supply_perm (p n : Nat) (g : Supply) : drawVec (supplyRng.perm p) n g =
    (fun j : Fin n => g.s p j, { g with s := fun q k => if q = p then g.s q (k + n) else g.s q k }) := by
  have key : ∀ m, (fun g : Supply => (supplyRng.perm p g).2)^[m] g =
      { g with s := fun q k => if q = p then g.s q (k + m) else g.s q k } := by
    intro m
    induction m with
    | zero =>
      show g = Supply.mk _ _ _ (fun q k => if q = p then g.s q k else g.s q k)
      simp only [ite_self]
    | succ m ih =>
      rw [Function.iterate_succ_apply', ih]
      show Supply.mk _ _ _ (fun q k => if q = p then (if q = p then g.s q (k + 1 + m) else g.s q (k + 1)) else
        (if q = p then g.s q (k + m) else g.s q k)) = Supply.mk _ _ _ (fun q k => if q = p then g.s q (k + (m + 1)) else g.s q k)
      congr 1
      funext q k
      split_ifs
      · congr 1; omega
      · rfl
  refine Prod.ext (funext fun j => ?_) (key n)
  show (supplyRng.perm p ((fun g : Supply => (supplyRng.perm p g).2)^[j.val] g)).1 = _
  rw [key]
  show (if p = p then g.s p (0 + j) else g.s p 0) = g.s p j
  rw [if_pos rfl, Nat.zero_add]

variable {n : Nat} (π : Equiv.Perm (Fin n)) (p : Nat)

theorem supply_deals_rand : Deals supplyRng.rand π (Supply.deal π p) (Supply.deal π p) := by
  intro g
  rw [supply_rand, supply_rand]
  refine Prod.ext (funext fun j => regroup_first π g.u j) ?_
  show Supply.mk (fun k => regroup π g.u (k + n)) _ _ _ = Supply.mk (regroup π fun k => g.u (k + n)) _ _ _
  rw [regroup_rest]
  rfl

theorem supply_deals_randn : Deals supplyRng.randn π (Supply.deal π p) (Supply.deal π p) := by
  intro g
  rw [supply_randn, supply_randn]
  refine Prod.ext (funext fun j => regroup_first π g.z j) ?_
  show Supply.mk _ (fun k => regroup π g.z (k + n)) _ _ = Supply.mk _ (regroup π fun k => g.z (k + n)) _ _
  rw [regroup_rest]
  rfl

theorem supply_deals_perm : Deals (supplyRng.perm p) π (Supply.deal π p) (Supply.deal π p) := by
  intro g
  rw [supply_perm, supply_perm]
  refine Prod.ext ?_ ?_
  · funext j
    show (if p = p then regroup π (g.s p) else g.s p) j = g.s p (π j)
    rw [if_pos rfl]
    exact regroup_first π (g.s p) j
  · show Supply.mk _ _ _ (fun q k => if q = p then (if q = p then regroup π (g.s q) else g.s q) (k + n) else
      (if q = p then regroup π (g.s q) else g.s q) k) =
      Supply.mk _ _ _ (fun q => if q = p then regroup π (fun k => if q = p then g.s q (k + n) else g.s q k) else
        fun k => if q = p then g.s q (k + n) else g.s q k)
    congr 1
    funext q
    by_cases hq : q = p
    · subst hq
      simp only [if_true]
      exact regroup_rest π (g.s q)
    · simp only [hq, if_false]

theorem supply_randint (hn : 0 < n) (g : Supply) : supplyRng.randint n (g.deal π p) =
    (natPerm π.symm (supplyRng.randint n g).1, (supplyRng.randint n g).2.deal π p) := by
  refine Prod.ext ?_ rfl
  show natPerm π.symm (g.i 0 % n) % n = natPerm π.symm (g.i 0 % n)
  refine Nat.mod_eq_of_lt ?_
  rw [show natPerm π.symm (g.i 0 % n) = (π.symm ⟨g.i 0 % n, Nat.mod_lt _ hn⟩).val from natPerm_val π.symm ⟨g.i 0 % n, Nat.mod_lt _ hn⟩]
  exact (π.symm _).2

theorem supply_perm_other {q : Nat} (hq : q ≠ p) (g : Supply) : supplyRng.perm q (g.deal π p) =
    ((supplyRng.perm q g).1, (supplyRng.perm q g).2.deal π p) := by
  refine Prod.ext ?_ ?_
  · show (if q = p then regroup π (g.s q) else g.s q) 0 = g.s q 0
    rw [if_neg hq]
  · show Supply.mk _ _ _ (fun r k => if r = q then (if r = p then regroup π (g.s r) else g.s r) (k + 1) else
      (if r = p then regroup π (g.s r) else g.s r) k) =
      Supply.mk _ _ _ (fun r => if r = p then regroup π (fun k => if r = q then g.s r (k + 1) else g.s r k) else
        fun k => if r = q then g.s r (k + 1) else g.s r k)
    congr 1
    funext r
    by_cases hr : r = q
    · subst hr
      simp only [if_true, hq, if_false]
    · simp only [hr, if_false]

theorem supply_normals : Deals supplyRng.randn π (Supply.dealNormals π) (Supply.dealNormals π) := by
  intro g
  rw [supply_randn, supply_randn]
  refine Prod.ext (funext fun j => regroup_first π g.z j) ?_
  show Supply.mk _ (fun k => regroup π g.z (k + n)) _ _ = Supply.mk _ (regroup π fun k => g.z (k + n)) _ _
  rw [regroup_rest]
  rfl

/-- The normal numbers, and the uniform numbers of a first sample. -/
def Supply.dealStart {n : Nat} (π : Equiv.Perm (Fin n)) (g : Supply) : Supply :=
  { g with u := fun k => if k < n then g.u (natPerm π k) else g.u k, z := regroup π g.z }

theorem supply_start : Deals supplyRng.rand π (Supply.dealStart π) (Supply.dealNormals π) := by
  intro g
  rw [supply_rand, supply_rand]
  refine Prod.ext ?_ ?_
  · funext j
    show (if j.val < n then g.u (natPerm π j) else g.u j) = g.u (π j)
    rw [if_pos j.2, natPerm_val]
  · show Supply.mk (fun k => if k + n < n then g.u (natPerm π (k + n)) else g.u (k + n)) _ _ _ = Supply.mk (fun k => g.u (k + n)) _ _ _
    congr 1
    funext k
    rw [if_neg (by omega)]

/-- Some numbers. -/
def supply0 : Supply :=
  { u := fun k => ((k * k * 3 + 1) % 7 : Nat) / 8, z := fun k => ((k * 3 + 1) % 5 : Nat) - 2, i := fun k => k,
    s := fun _ k => if k % 2 = 0 then Equiv.refl _ else Fin.revPerm }

/-- The two variables exchanged. -/
def swap2 : Equiv.Perm (Fin 2) := Equiv.swap 0 1

/-- A run in which the best value strictly improves. -/
def gains {σ : Type} {p n : Nat} (o : Output σ ℚ p n) : Bool :=
  match o.cbs.head? with
  | some b => decide (o.res.fval < b.fval)
  | none => false

/-! ## Concrete cases -/

example : ∃ o, DE.minimize env supplyRng 10 { deArgs with seed := none } supply0 = .ok o ∧ gains o = true ∧
    DE.minimize env supplyRng 10 (DE.Args.reorder { deArgs with seed := none } swap2) (supply0.deal swap2 5) =
      .ok (o.reorder swap2 (Supply.deal swap2 5)) := by
  obtain ⟨o, h, ho⟩ := returns_iff (r := DE.minimize env supplyRng 10 { deArgs with seed := none } supply0) (t := gains) (by decide +kernel)
  refine ⟨o, h, ho, ?_⟩
  have := C104_de env_ok (R := supplyRng) (fuel := 10) (a := { deArgs with seed := none }) rfl (π := swap2) (supply_deals_rand swap2 5)
    (supply_randint swap2 5 (by decide)) (supply_perm_other swap2 5 (by decide)) (fun _ => supply_deals_perm swap2 5) supply0
  rw [h] at this
  exact this

example : ∃ o, CPSO.minimize env supplyRng stableArgsort 10 { cpsoArgs with seed := none } supply0 = .ok o ∧ gains o = true ∧
    CPSO.minimize env supplyRng stableArgsort 10 (CPSO.Args.reorder { cpsoArgs with seed := none } swap2) (supply0.deal swap2 5) =
      .ok (o.reorder swap2 (Supply.deal swap2 5)) := by
  obtain ⟨o, h, ho⟩ := returns_iff (r := CPSO.minimize env supplyRng stableArgsort 10 { cpsoArgs with seed := none } supply0) (t := gains) (by decide +kernel)
  refine ⟨o, h, ho, ?_⟩
  have := C104_cpso env_ok (R := supplyRng) (srt := stableArgsort) (fuel := 10) (a := { cpsoArgs with seed := none }) rfl (π := swap2)
    (supply_deals_rand swap2 5) (fun _ => supply_deals_perm swap2 5) supply0
  rw [h] at this
  exact this

example : ∃ o, PSO.minimize env supplyRng stableArgsort 10 { psoArgs with seed := none } supply0 = .ok o ∧ gains o = true ∧
    PSO.minimize env supplyRng stableArgsort 10 (PSO.Args.reorder { psoArgs with seed := none } swap2) (supply0.deal swap2 5) =
      .ok (o.reorder swap2 (Supply.deal swap2 5)) := by
  obtain ⟨o, h, ho⟩ := returns_iff (r := PSO.minimize env supplyRng stableArgsort 10 { psoArgs with seed := none } supply0) (t := gains) (by decide +kernel)
  refine ⟨o, h, ho, ?_⟩
  have := C104_pso env_ok (R := supplyRng) (srt := stableArgsort) (fuel := 10) (a := { psoArgs with seed := none }) rfl (π := swap2)
    (supply_deals_rand swap2 5) (fun _ => supply_deals_perm swap2 5) supply0
  rw [h] at this
  exact this

example : ∃ o, VDCMA.minimize env supplyRng stableArgsort 10 { evoArgs with seed := none } junk0 supply0 = .ok o ∧ gains o = true ∧
    VDCMA.minimize env supplyRng stableArgsort 10 (Evo.Args.reorder { evoArgs with seed := none } swap2) (reorder swap2 junk0)
      (supply0.deal swap2 6) = .ok (o.reorder swap2 (Supply.deal swap2 6)) := by
  obtain ⟨o, h, ho⟩ := returns_iff (r := VDCMA.minimize env supplyRng stableArgsort 10 { evoArgs with seed := none } junk0 supply0) (t := gains) (by decide +kernel)
  refine ⟨o, h, ho, ?_⟩
  have := C104_vdcma env_ok (R := supplyRng) (srt := stableArgsort) (fuel := 10) (a := { evoArgs with seed := none }) rfl (π := swap2)
    (supply_deals_randn swap2 6) (fun _ => supply_deals_rand swap2 6) junk0 supply0
  rw [h] at this
  exact this

/-- A chain in which proposals are accepted. -/
def accepts {σ : Type} {n : Nat} (o : Sampling.Output σ ℚ n) : Bool := decide (0 < o.acceptRatio)

/-- All coordinates move at once. -/
def mcmcAll : MCMC.Args ℚ := { mcmcArgs with seed := none, perc := 1 }

example : ∃ o, (MCMC.sample supplyRng 10 mcmcAll supply0).1 = .ok o ∧ accepts o = true ∧
    (MCMC.sample supplyRng 10 (mcmcAll.reorder swap2) (supply0.dealNormals swap2)).1 =
      .ok (o.map (reorder swap2) (Supply.dealNormals swap2)) := by
  obtain ⟨o, h, ho⟩ := returns_iff (r := (MCMC.sample supplyRng 10 mcmcAll supply0).1) (t := accepts) (by decide +kernel)
  refine ⟨o, h, ho, ?_⟩
  have := C104_mcmc_partial (R := supplyRng) (fuel := 10) (a := mcmcAll) (g := supply0) rfl rfl (π := swap2) (T₀ := Supply.dealNormals swap2)
    (T := Supply.dealNormals swap2) (T' := Supply.dealNormals swap2) (fun h => by cases h) (fun _ => rfl) (supply_normals swap2)
    (fun _ => rfl) (fun _ => rfl)
  rw [h] at this
  exact congrArg Prod.fst this

/-- A random start. -/
example : ∃ o, (MCMC.sample supplyRng 10 { mcmcAll with x0 := none } supply0).1 = .ok o ∧ accepts o = true ∧
    (MCMC.sample supplyRng 10 (MCMC.Args.reorder { mcmcAll with x0 := none } swap2) (supply0.dealStart swap2)).1 =
      .ok (o.map (reorder swap2) (Supply.dealNormals swap2)) := by
  obtain ⟨o, h, ho⟩ := returns_iff (r := (MCMC.sample supplyRng 10 { mcmcAll with x0 := none } supply0).1) (t := accepts) (by decide +kernel)
  refine ⟨o, h, ho, ?_⟩
  have := C104_mcmc_partial (R := supplyRng) (fuel := 10) (a := { mcmcAll with x0 := none }) (g := supply0) rfl rfl (π := swap2)
    (T₀ := Supply.dealStart swap2) (T := Supply.dealNormals swap2) (T' := Supply.dealNormals swap2) (fun _ => supply_start swap2)
    (fun h => absurd rfl h) (supply_normals swap2) (fun _ => rfl) (fun _ => rfl)
  rw [h] at this
  exact congrArg Prod.fst this

example : ∃ o, (HMC.sample supplyRng { hmcArgs with seed := none } supply0).1 = .ok o ∧ accepts o = true ∧
    ∃ o', (HMC.sample supplyRng (HMC.Args.reorder { hmcArgs with seed := none } swap2) (supply0.dealNormals swap2)).1 = .ok o' ∧
      o'.xall = o.xall.map (List.map (reorder swap2)) := by
  obtain ⟨o, h, ho⟩ := returns_iff (r := (HMC.sample supplyRng { hmcArgs with seed := none } supply0).1) (t := accepts) (by decide +kernel)
  refine ⟨o, h, ho, ?_⟩
  obtain ⟨o', h', he, -⟩ := (C104_hmc (R := supplyRng) (a := { hmcArgs with seed := none }) (g := supply0) rfl (π := swap2)
    (T₀ := Supply.dealNormals swap2) (T := Supply.dealNormals swap2) (T' := Supply.dealNormals swap2) (fun h => by cases h) (fun _ => rfl)
    (supply_normals swap2) (fun _ => rfl) (fun _ => rfl)).1 o h
  exact ⟨o', h', by rw [he]; rfl⟩

/-! ## Where the order matters -/

/-- In the second sample only the first coordinate may differ from the first sample, whatever the generator: the chain of the same problem
with the two variables exchanged is not the chain of any generator with its coordinates exchanged. -/
theorem C104_mcmc_violated : ∃ o', (MCMC.sample rng 10 (MCMC.Args.reorder { mcmcArgs with seed := none } swap2) 0).1 = .ok o' ∧
    ∀ (σ : Type) (R : Rng σ ℚ), R.Ok → ∀ fuel g o, (MCMC.sample R fuel { mcmcArgs with seed := none } g).1 = .ok o →
      o'.xall ≠ o.xall.map (List.map (reorder swap2)) := by
  obtain ⟨o', h', ht⟩ := returns_iff (r := (MCMC.sample rng 10 (MCMC.Args.reorder { mcmcArgs with seed := none } swap2) 0).1)
    (t := fun o => match o.xall with
      | some (_ :: x :: _) => decide (x (0 : Fin 2) ≠ .fin 0)
      | _ => false) (by decide +kernel)
  refine ⟨o', h', ?_⟩
  intro σ R hR fuel g o h e
  obtain ⟨xs, ms, hrun, hx, -⟩ := C44_mcmc hR (a := { mcmcArgs with seed := none }) (fn := bowl) rfl h
  rw [hx rfl] at e
  have hlen : (xs.length : Int) = 5 := hrun.length
  have hms : ms.length = 4 := by have := hrun.links.1; omega
  obtain ⟨m, hm⟩ : ∃ m, ms[0]? = some m := ⟨_, List.getElem?_eq_getElem (by omega)⟩
  obtain ⟨l0, l1⟩ := hrun.links.2 0 m hm
  have hold : m.old (1 : Fin 2) = .fin 0 := by rw [hrun.first _ l0 rfl]; decide +kernel
  have hsize : blockSize (1 / 2 : ℚ) 2 = 1 := by decide +kernel
  have hprop : m.prop (1 : Fin 2) = m.old (1 : Fin 2) := by
    have := hrun.proposal 0 m hm (1 : Fin 2)
    rw [this]
    exact if_neg (by show ¬ (1 : Nat) / blockSize (1 / 2 : ℚ) 2 = _; rw [hsize]; show ¬ 1 / 1 = 0 % blockCount 2 1; decide)
  have hnext : m.next (1 : Fin 2) = .fin 0 := by
    unfold Move.next
    split_ifs
    · rw [hprop, hold]
    · exact hold
  have key : ∀ (l l' : List (Vec (Val ℚ) 2)) (x y : Vec (Val ℚ) 2), l' = l.map (reorder swap2) → l[0]? = some x → l[1]? = some y → y 1 = .fin 0 →
      (match some l' with
      | some (_ :: x :: _) => decide (x (0 : Fin 2) ≠ .fin 0)
      | _ => false) = true → False := by
    intro l l' x y e hx hy h0 h
    subst e
    match l, hx, hy, h with
    | x :: y :: _, rfl, rfl, h => exact of_decide_eq_true h h0
  rw [e] at ht
  exact key xs _ _ _ rfl l0 l1 hnext ht

/-! ### na -/

def unit2 : NdArr ℚ := { shape := [2, 2], get := fun l => if l.getD 1 0 = 0 then 0 else 1 }

/-- The models (1/4, 1/4) and (3/4, 1/2). -/
def pair2 : NdArr ℚ := { shape := [2, 2], get := fun l => if l.getD 0 0 = 0 then 1 / 4 else if l.getD 1 0 = 0 then 3 / 4 else 1 / 2 }

def naTilted : NA.Args ℚ :=
  { naArgs with bounds := unit2, fn := some fun x => .fin (x (0 : Fin 2)), x0 := some pair2, popsize := 2, maxiter := 2, seed := none, nrperc := 1 / 2 }

def far2 : Vec ℚ 2 := fun j => if j = 0 then 3 / 4 else 1 / 2

/-- The same as a list. -/
def tilted2 : List (Vec ℚ 2) := [fun _ => 1 / 4, far2]

theorem tilted2_best : ∀ (h : 0 < 2) (j : Fin 2),
    tilted2.get (stableArgsort 2 (fun k => Val.fin (0 + (1 - 0) * (tilted2.get k) 0)) ⟨0, h⟩) j = 1 / 4 := by decide +kernel

/-- A small number, then a large one. -/
def seesaw : Rng Nat ℚ := { rng with rand := fun g => (if g % 2 = 0 then 1 / 100 else 9 / 10, g + 1) }

theorem seesaw_ok : seesaw.Ok where
  rand_nonneg g := by simp only [seesaw]; split_ifs <;> norm_num
  rand_lt_one g := by simp only [seesaw]; split_ifs <;> norm_num
  randint_lt n g h := Nat.mod_lt _ h

/-- The first new model has its first coordinate at most 9/16, whatever the generator. -/
theorem naTilted_bound {σ : Type} {R : Rng σ ℚ} (hR : R.Ok) {fuel : Nat} {g : σ} {o : Output σ ℚ naTilted.p naTilted.ndim}
    (h : NA.minimize env R stableArgsort fuel naTilted g = .ok o) : ∃ x, o.evals[2]? = some x ∧ x (0 : Fin 2) ≤ 9 / 16 := by
  obtain ⟨S, gs, hS⟩ := C80_na env_ok hR (srt := stableArgsort) (a := naTilted) ⟨by decide +kernel, by
    intro x hx i hi j
    cases hx
    have hi : i < 2 := hi
    interval_cases i <;> revert j <;> decide +kernel⟩ (by decide +kernel) rfl h
  obtain ⟨X, hX, hpos⟩ := hS.start
  have hX : X = fun i j => pair2.get [i.val, j.val] := by
    rcases hX with ⟨e, -⟩ | ⟨e, -⟩
    · exact (Option.some.inj e).symm
    · cases e
  have hpos : (S 0).pos = fun i j => pair2.get [i.val, j.val] := by
    funext i j
    rw [hpos, hX]
    show (_ - (0 : ℚ)) / (1 - 0) = _
    simp
  have hmod : (S 0).models = tilted2 := by
    rw [hS.models, hpos]
    exact congrArg₂ (fun a b => [a, b]) (funext (by decide +kernel))
      (funext (show ∀ j : Fin 2, pair2.get [1, j.val] = far2 j by decide +kernel))
  have hgen := hS.generation 0 (by have := hS.atleast; omega)
  obtain ⟨G, -, -, hw⟩ := hgen.walks
  obtain ⟨v, ⟨hr, hv⟩, T, hT0, hT2, hT⟩ := hw (0 : Fin 2)
  obtain ⟨a, b, ⟨⟨ha, -⟩, -, hb⟩, hT1⟩ := hT (0 : Fin 2)
  obtain ⟨a', b', -, hT2'⟩ := hT (1 : Fin 2)
  refine ⟨(naSetting R stableArgsort naTilted fun x => .fin (x (0 : Fin 2))).place ((S 1).pos (0 : Fin 2)), ?_, ?_⟩
  · obtain ⟨m, hm⟩ : ∃ m, o.res.nit = m + 2 := ⟨o.res.nit - 2, by have := hS.atleast; omega⟩
    rw [hS.evaluated, hm, List.range_succ_eq_map, List.range_succ_eq_map]
    rfl
  · have hv : v = fun _ => 1 / 4 := by
      revert hr hv
      rw [hmod]
      intro hr hv
      rw [hv]
      funext j
      exact tilted2_best hr j
    have e : (S 1).pos (0 : Fin 2) (0 : Fin 2) = a + (b - a) * (R.rand (T 0).2).1 := by
      have h1 : (T 1).1 (0 : Fin 2) = a + (b - a) * (R.rand (T 0).2).1 := by
        have := congrArg (fun t => t.1 (0 : Fin 2)) hT1
        exact this.trans (Function.update_self (α := Fin naTilted.ndim) (β := fun _ => ℚ) (0 : Fin 2) _ (T 0).1)
      have h2 : (T 2).1 (0 : Fin 2) = (T 1).1 (0 : Fin 2) := by
        have := congrArg (fun t => t.1 (0 : Fin 2)) hT2'
        exact this.trans (Function.update_of_ne (α := Fin naTilted.ndim) (β := fun _ => ℚ) (a := (0 : Fin 2)) (a' := (1 : Fin 2))
          (show (0 : Fin 2) ≠ 1 by decide) (a' + (b' - a') * (R.rand (T 1).2).1) (T 1).1)
      have h3 : (T 2).1 (0 : Fin 2) = (S 1).pos (0 : Fin 2) (0 : Fin 2) := congrArg (fun t => t.1 (0 : Fin 2)) hT2
      rw [← h3, h2, h1]
    have h0 : (T 0).1 = fun _ => 1 / 4 := by rw [hT0]; exact hv
    have ha : a ≤ 1 / 4 := by have := ha.1; rw [show (T ((0 : Fin 2) : Nat)).1 = _ from h0] at this; exact this
    have hb : b ≤ 9 / 16 := by
      refine hb ⟨?_, Or.inr ⟨far2, ?_, ?_, ?_⟩⟩
      · rw [show (T ((0 : Fin 2) : Nat)).1 = _ from h0]; norm_num
      · rw [hmod]; exact List.mem_cons_of_mem _ List.mem_cons_self
      · rw [hv]; show ¬ ((3 / 4 : ℚ) = 1 / 4); norm_num
      · rw [show (T ((0 : Fin 2) : Nat)).1 = _ from h0, hv]
        decide +kernel
    have hu0 := hR.rand_nonneg (T 0).2
    have hu1 := hR.rand_lt_one (T 0).2
    show (0 : ℚ) + (1 - 0) * (S 1).pos (0 : Fin 2) (0 : Fin 2) ≤ 9 / 16
    rw [e]
    nlinarith

theorem C104_na_violated : ∃ o', NA.minimize env seesaw stableArgsort 10 (naTilted.reorder swap2) 0 = .ok o' ∧
    ∀ (σ : Type) (R : Rng σ ℚ), R.Ok → ∀ fuel g o, NA.minimize env R stableArgsort fuel naTilted g = .ok o →
      o'.evals ≠ o.evals.map (reorder swap2) := by
  obtain ⟨o', h', ht⟩ := returns_iff (r := NA.minimize env seesaw stableArgsort 10 (naTilted.reorder swap2) 0)
    (t := fun o => match o.evals[2]? with
      | some x => decide (9 / 16 < x (1 : Fin 2))
      | _ => false) (by decide +kernel)
  refine ⟨o', h', ?_⟩
  intro σ R hR fuel g o h e
  obtain ⟨x, hx, hb⟩ := naTilted_bound hR h
  have key : ∀ (l l' : List (Vec ℚ 2)) (x : Vec ℚ 2), l' = l.map (reorder swap2) → l[2]? = some x → x 0 ≤ 9 / 16 →
      (match l'[2]? with
      | some x => decide (9 / 16 < x (1 : Fin 2))
      | _ => false) = true → False := by
    intro l l' x e hx hb h
    rw [e, List.getElem?_map, hx] at h
    exact absurd hb (not_le.2 (of_decide_eq_true h))
  exact key o.evals o'.evals x e hx hb ht

end Stochopy.Props
