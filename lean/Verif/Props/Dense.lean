import Verif.Dense.Lemmas
import Mathlib.Tactic.NormNum

/-!
# Properties of the state update and of the dense output (C20)

`poly c order h v = Σ_{o ≤ order} c_o(v) h^o` is the specification: the value at `h` of the Taylor
polynomial of the variable `v`.
-/

namespace Heyoka.Dense

open Finset

/-- Value at `h` of the Taylor polynomial of the variable `v` with coefficients `c o v`. -/
def poly {V : Type*} [CommRing V] (c : Nat → Nat → V) (order : Nat) (h : V) (v : Nat) : V :=
  ∑ o ∈ range (order + 1), c o v * h ^ o

section
variable {K : Type*} [CommRing K] {b : Nat}

/-- **C20.** Non-compact mode: for both evaluation schemes the new state is the value of the
Taylor polynomials at the timestep, in every lane. -/
theorem state_update_noncompact (ha : Bool) {nEq order : Nat} {jet : List (Fin b → K)}
    {c : Nat → Nat → Fin b → K}
    (hj : ∀ o ≤ order, ∀ v < nEq, jet[nEq * o + v]? = some (c o v)) (h : Fin b → K) :
    evalPolys ha (jetCf nEq jet) nEq order h = .ok ((List.range nEq).map (poly c order h)) :=
  evalPolys_eq ha h fun o ho v hv => by simp [jetCf, hj o ho v hv]

/-- **C20.** Compact mode: same, with the coefficients in the tape of all the u variables. -/
theorem state_update_compact (ha : Bool) {nEq nUvars order : Nat} {tape : List (Fin b → K)}
    {c : Nat → Nat → Fin b → K}
    (hj : ∀ o ≤ order, ∀ v < nEq, tape[nUvars * o + v]? = some (c o v)) (h : Fin b → K) :
    evalPolys ha (tapeCf nUvars tape) nEq order h = .ok ((List.range nEq).map (poly c order h)) :=
  evalPolys_eq ha h fun o ho v hv => by simp [tapeCf, hj o ho v hv]

/-- The array of Taylor coefficients `tcs` contains the coefficients `c o v` (row-major in the
variable, then order, then lane) of `n` variables. -/
def HasCoeffs (tcs : List K) (n order : Nat) (c : Nat → Nat → Fin b → K) : Prop :=
  tcs.length = n * (order + 1) * b ∧
    ∀ v < n, ∀ o ≤ order, ∀ l : Fin b, tcs[(v * (order + 1) + o) * b + l.val]? = some (c o v l)

/-- Coefficient loads from an array of Taylor coefficients. -/
theorem dOutCf_hasCoeffs {tcs : List K} {n order : Nat} {c : Nat → Nat → Fin b → K}
    (ht : HasCoeffs tcs n order c) {o v : Nat} (ho : o ≤ order) (hv : v < n) :
    dOutCf b order tcs 0 o v = .ok (c o v) := by
  obtain ⟨h1, e⟩ := dOutCf_ok (b := b) (base := 0) (tcs := tcs) (by rw [ht.1]; omega) hv ho
  rw [e]
  congr 1
  funext l
  have := ht.2 v hv o ho l
  rw [List.getElem?_eq_some_iff] at this
  obtain ⟨_, this⟩ := this
  rw [← this]
  congr 1
  ring

/-- **C20.** The dense output function evaluates the Taylor polynomials of the first `nEq`
variables of the array of coefficients, for both schemes. -/
theorem dense_output_eval (ha : Bool) {nEq n order : Nat} (hn : nEq ≤ n) {tcs : List K}
    {c : Nat → Nat → Fin b → K} (ht : HasCoeffs tcs n order c) (h : Fin b → K) :
    dOut b ha nEq order tcs 0 h = .ok ((List.range nEq).map (poly c order h)) :=
  evalPolys_eq ha h fun _ ho _ hv => dOutCf_hasCoeffs ht ho (by omega)

/-- The contents of a memory region starting at 0. -/
def RegionIs (m : Mem K) (tcs : List K) : Prop := ∀ a < tcs.length, m a = tcs[a]?

omit [CommRing K] in
/-- **C20.** Non-compact mode: writing the Taylor coefficients initialises the whole output array
with the coefficients of the state variables and of the sv functions, and nothing else is
written. -/
theorem write_tc_noncompact {nEq nSv order : Nat} {jet : List (Fin b → K)}
    {c : Nat → Nat → Fin b → K}
    (hj : ∀ o ≤ order, ∀ v < nEq + nSv, jet[(nEq + nSv) * o + v]? = some (c o v)) (m : Mem K) :
    ∃ m', writeTc nEq nSv order jet m = .ok m' ∧
      (∀ tcs : List K, tcs.length = (nEq + nSv) * (order + 1) * b → RegionIs m' tcs →
        HasCoeffs tcs (nEq + nSv) order c) ∧
      ∀ a, (nEq + nSv) * (order + 1) * b ≤ a → m' a = m a := by
  obtain ⟨m', e, h1, h2⟩ := writeRows_eq (b := b) (order := order) (lo := 0) (c := c)
    (f := fun j m => writeTcRow order (fun o => jetCf (nEq + nSv) jet o j) j m) (k := nEq + nSv)
    (fun i hi m => ⟨_, by rw [Nat.zero_add], fun o ho => by simp [jetCf, hj o ho i hi]⟩) m
  refine ⟨m', e, ?_, ?_⟩
  · intro tcs hlen hr
    refine ⟨hlen, fun v hv o ho l => ?_⟩
    have hlt := index_lt (b := b) hv ho
    have key := h1 v hv o ho l
    rw [Nat.zero_add] at key
    have e1 : (order + 1) * b * v + o * b + l.val = (v * (order + 1) + o) * b + l.val := by ring
    rw [e1] at key
    rw [← key, hr]
    have e2 : (v * (order + 1) + o) * b = b * (order + 1) * v + b * o := by ring
    have := l.isLt
    omega
  · intro a ha
    exact h2 a (.inr (by rw [Nat.zero_add]; calc
      (order + 1) * b * (nEq + nSv) = (nEq + nSv) * (order + 1) * b := by ring
      _ ≤ a := ha))

omit [CommRing K] in
/-- **C20.** Compact mode: same, with the coefficients of the sv functions fetched from the tape
at the indices listed in `svf`. -/
theorem write_tc_compact {nEq nUvars order : Nat} {svf : List Nat} {tape : List (Fin b → K)}
    {c : Nat → Nat → Fin b → K}
    (hj : ∀ o ≤ order, ∀ v < nEq, tape[nUvars * o + v]? = some (c o v))
    (hsv : ∀ o ≤ order, ∀ (a u : Nat), svf[a]? = some u →
      tape[nUvars * o + u]? = some (c o (nEq + a))) (m : Mem K) :
    ∃ m', writeTcCompact nEq nUvars order svf tape m = .ok m' ∧
      (∀ tcs : List K, tcs.length = (nEq + svf.length) * (order + 1) * b → RegionIs m' tcs →
        HasCoeffs tcs (nEq + svf.length) order c) ∧
      ∀ a, (nEq + svf.length) * (order + 1) * b ≤ a → m' a = m a := by
  obtain ⟨m1, e1, h1, h2⟩ := writeRows_eq (b := b) (order := order) (lo := 0) (c := c)
    (f := fun j m => writeTcRow order (fun o => tapeCf nUvars tape o j) j m) (k := nEq)
    (fun i hi m => ⟨_, by rw [Nat.zero_add], fun o ho => by simp [tapeCf, hj o ho i hi]⟩) m
  obtain ⟨m2, e2, h3, h4⟩ := writeRows_eq (b := b) (order := order) (lo := nEq) (c := c)
    (f := writeTcSv nEq nUvars order svf tape) (k := svf.length)
    (fun i hi m => by
      refine ⟨fun o => tapeCf nUvars tape o svf[i], by simp [writeTcSv, List.getElem?_eq_getElem hi], ?_⟩
      intro o ho
      simp [tapeCf, hsv o ho i _ (List.getElem?_eq_getElem hi)]) m1
  refine ⟨m2, by rw [writeTcCompact, e1, Res.bind_ok, e2], ?_, ?_⟩
  · intro tcs hlen hr
    refine ⟨hlen, fun v hv o ho l => ?_⟩
    have hlt := index_lt (b := b) hv ho
    have hl := l.isLt
    have e2 : (v * (order + 1) + o) * b = b * (order + 1) * v + b * o := by ring
    have e3 : (order + 1) * b * v + o * b + l.val = (v * (order + 1) + o) * b + l.val := by ring
    have key : m2 ((v * (order + 1) + o) * b + l.val) = some (c o v l) := by
      rcases Nat.lt_or_ge v nEq with h | h
      · rw [h4]
        · have key := h1 v h o ho l
          rw [Nat.zero_add, e3] at key
          exact key
        · left
          have := index_lt (b := b) h ho
          have e4 : (order + 1) * b * nEq = nEq * (order + 1) * b := by ring
          omega
      · obtain ⟨i, rfl⟩ := Nat.exists_eq_add_of_le h
        have key := h3 i (by omega) o ho l
        rw [e3] at key
        exact key
    rw [← key, hr]
    omega
  · intro a ha
    have e4 : (order + 1) * b * (nEq + svf.length) = (nEq + svf.length) * (order + 1) * b := by ring
    have e5 : (order + 1) * b * nEq ≤ (order + 1) * b * (nEq + svf.length) :=
      Nat.mul_le_mul_left _ (by omega)
    rw [h4 a (by omega), h2 a (by rw [Nat.zero_add]; omega)]

/-- **C20.** Horner and compensated summation agree in exact arithmetic for every coefficient
source. -/
theorem horner_eq_ceval {V : Type*} [CommRing V] {cf : Nat → Nat → Res V} {n order : Nat}
    (hc : ∀ o ≤ order, ∀ v < n, ∃ x, cf o v = .ok x) (h : V) :
    evalPolys false cf n order h = evalPolys true cf n order h := by
  classical
  have : ∃ c : Nat → Nat → V, ∀ o ≤ order, ∀ v < n, cf o v = .ok (c o v) := by
    refine ⟨fun o v => if h : o ≤ order ∧ v < n then (hc o h.1 v h.2).choose else 0, ?_⟩
    intro o ho v hv
    beta_reduce
    rw [dif_pos ⟨ho, hv⟩]
    exact (hc o ho v hv).choose_spec
  obtain ⟨c, hc⟩ := this
  rw [evalPolys_eq _ h hc, evalPolys_eq _ h hc]

/-- **C20.** At `h = 0` the polynomials return the order-zero coefficients: the state at the
beginning of the step. -/
theorem poly_zero {V : Type*} [CommRing V] (c : Nat → Nat → V) (order v : Nat) :
    poly c order 0 v = c 0 v := by
  rw [poly, Finset.sum_eq_single 0]
  · simp
  · intro o _ ho; simp [ho]
  · simp

/-- **C20.** `update_d_output(t, rel_time = false)`: the polynomial at `t` minus the time of the
beginning of the last step. -/
theorem update_d_output_abs (ha : Bool) {nEq n order : Nat} (hn : nEq ≤ n) {tc : List K}
    {c : Nat → Nat → Fin 1 → K} (ht : HasCoeffs tc n order c) (time lastH t : K) :
    updateDOutput ha nEq order tc time lastH t false =
      .ok ((List.range nEq).map (poly c order fun _ => t - (time - lastH))) :=
  dense_output_eval ha hn ht _

/-- **C20.** `update_d_output(t, rel_time = true)`: `t` is relative to the current time. -/
theorem update_d_output_rel (ha : Bool) {nEq n order : Nat} {tc : List K} (time lastH t : K) :
    updateDOutput ha nEq order tc time lastH t true =
      updateDOutput ha nEq order tc time lastH (time + t) false ∧
    (∀ {c : Nat → Nat → Fin 1 → K}, nEq ≤ n → HasCoeffs tc n order c →
      updateDOutput ha nEq order tc time lastH 0 true =
        .ok ((List.range nEq).map (poly c order fun _ => lastH))) := by
  refine ⟨?_, fun hn ht => ?_⟩
  · simp only [updateDOutput, if_true, Bool.false_eq_true, if_false]
    congr 1
    funext _
    ring
  · simp only [updateDOutput, if_true, add_zero]
    exact dense_output_eval ha hn ht _

end

/-! ### Non-vacuity -/

example : HasCoeffs (b := 2) ([1, 2, 3, 4, 5, 6, 7, 8] : List ℤ) 2 1
    (fun o v l => 1 + 4 * v + 2 * o + l.val) := by
  refine ⟨rfl, ?_⟩
  intro v hv o ho l
  match v, o, l, hv, ho with
  | 0, 0, 0, _, _ => rfl
  | 0, 0, 1, _, _ => rfl
  | 0, 1, 0, _, _ => rfl
  | 0, 1, 1, _, _ => rfl
  | 1, 0, 0, _, _ => rfl
  | 1, 0, 1, _, _ => rfl
  | 1, 1, 0, _, _ => rfl
  | 1, 1, 1, _, _ => rfl

example : (dOut 1 true 2 2 ([1, 2, 3, 4, 5, 6] : List ℤ) 0 fun _ => 2) =
    .ok [fun _ => 17, fun _ => 38] := by
  have hc : HasCoeffs (b := 1) ([1, 2, 3, 4, 5, 6] : List ℤ) 2 2 (fun o v _ => 1 + 3 * v + o) := by
    refine ⟨rfl, ?_⟩
    intro v hv o ho l
    match v, o, l, hv, ho with
    | 0, 0, 0, _, _ => rfl
    | 0, 1, 0, _, _ => rfl
    | 0, 2, 0, _, _ => rfl
    | 1, 0, 0, _, _ => rfl
    | 1, 1, 0, _, _ => rfl
    | 1, 2, 0, _, _ => rfl
  rw [dense_output_eval true le_rfl hc]
  simp only [List.range_succ, List.range_zero, List.nil_append, List.cons_append, List.map_cons,
    List.map_nil, Res.ok.injEq, List.cons.injEq, and_true]
  constructor <;> (funext _; simp [poly, Finset.sum_range_succ])

end Heyoka.Dense
