import Verif.Dense.Model
import Verif.Search.Lemmas
import Mathlib.Algebra.BigOperators.Intervals
import Mathlib.Algebra.BigOperators.Pi
import Mathlib.Algebra.BigOperators.Ring.Finset
import Mathlib.Data.List.FinRange
import Mathlib.Tactic.Ring

/-! # Evaluation of Taylor polynomials: lemmas -/

namespace Heyoka.Dense

open Finset

section Eval
variable {V : Type*} [CommRing V]

theorem zipIdx_map_range {α : Type*} (n : Nat) (x : Nat → α) :
    ((List.range n).map x).zipIdx = (List.range n).map fun v => (x v, v) := by
  apply List.ext_getElem
  · simp
  · intro i h1 h2
    simp

theorem mapRow {α β : Type*} {n : Nat} {x : Nat → α} {f : α × Nat → Res β} {g : Nat → β}
    (h : ∀ v < n, f (x v, v) = .ok (g v)) :
    mapLanes f ((List.range n).map x).zipIdx = .ok ((List.range n).map g) := by
  rw [zipIdx_map_range, mapLanes_map]
  exact mapLanes_ok_mem fun v hv => h v (List.mem_range.1 hv)

theorem horner_eq {cf : Nat → Nat → Res V} {c : Nat → Nat → V} {n order : Nat} (h : V)
    (hc : ∀ o ≤ order, ∀ v < n, cf o v = .ok (c o v)) :
    horner cf n order h =
      .ok ((List.range n).map fun v => ∑ o ∈ range (order + 1), c o v * h ^ o) := by
  have init : hornerInit cf n order = .ok ((List.range n).map fun v => c order v) :=
    mapLanes_ok_mem fun v hv => hc order le_rfl v (List.mem_range.1 hv)
  have main : ∀ k ≤ order,
      forRes (List.range' 1 k) (fun cur out => hornerRow cf h (order - cur) out)
        ((List.range n).map fun v => c order v) =
      .ok ((List.range n).map fun v => ∑ j ∈ range (k + 1), c (order - k + j) v * h ^ j) := by
    intro k
    induction k with
    | zero => intro _; simp [forRes]
    | succ k ih =>
      intro hk
      rw [List.range'_1_concat, forRes_append, ih (by omega)]
      simp only [Res.bind_ok, forRes, hornerRow]
      rw [mapRow (g := fun v => ∑ j ∈ range (k + 1 + 1), c (order - (k + 1) + j) v * h ^ j)]
      · rfl
      · intro v hv
        simp only [hc (order - (1 + k)) (by omega) v hv, Res.bind_ok, Res.ok.injEq]
        conv_rhs => rw [Finset.sum_range_succ']
        rw [Finset.sum_mul, add_comm]
        congr 1
        · apply Finset.sum_congr rfl
          intro j _
          rw [show order - (k + 1) + (j + 1) = order - k + j by omega]
          ring
        · rw [show order - (k + 1) + 0 = order - (1 + k) by omega]; ring
  rw [horner, init, Res.bind_ok, main order le_rfl]
  simp

theorem ceval_eq {cf : Nat → Nat → Res V} {c : Nat → Nat → V} {n order : Nat} (h : V)
    (hc : ∀ o ≤ order, ∀ v < n, cf o v = .ok (c o v)) :
    ceval cf n order h =
      .ok ((List.range n).map fun v => ∑ o ∈ range (order + 1), c o v * h ^ o) := by
  have init : mapLanes (fun v => (cf 0 v).bind fun c => .ok (c, (0 : V))) (List.range n) =
      .ok ((List.range n).map fun v => (c 0 v, (0 : V))) :=
    mapLanes_ok_mem fun v hv => by simp [hc 0 (Nat.zero_le _) v (List.mem_range.1 hv)]
  have main : ∀ k ≤ order,
      forRes (List.range' 1 k) (fun cur (s : V × List (V × V)) =>
        (cevalRow cf s.1 cur s.2).bind fun out' => .ok (s.1 * h, out'))
        (h, (List.range n).map fun v => (c 0 v, (0 : V))) =
      .ok (h ^ (k + 1), (List.range n).map fun v =>
        (∑ o ∈ range (k + 1), c o v * h ^ o, (0 : V))) := by
    intro k
    induction k with
    | zero => intro _; simp [forRes]
    | succ k ih =>
      intro hk
      rw [List.range'_1_concat, forRes_append, ih (by omega)]
      simp only [Res.bind_ok, forRes, cevalRow]
      rw [mapRow (g := fun v => (∑ o ∈ range (k + 1 + 1), c o v * h ^ o, (0 : V)))]
      · simp [pow_succ]
      · intro v hv
        simp only [hc (1 + k) (by omega) v hv, Res.bind_ok, Res.ok.injEq, Prod.mk.injEq]
        refine ⟨?_, by ring⟩
        conv_rhs => rw [Finset.sum_range_succ]
        rw [show 1 + k = k + 1 by omega]
        ring
  rw [ceval, init, Res.bind_ok, main order le_rfl]
  simp [Function.comp_def]

theorem evalPolys_eq {cf : Nat → Nat → Res V} {c : Nat → Nat → V} {n order : Nat} (ha : Bool)
    (h : V) (hc : ∀ o ≤ order, ∀ v < n, cf o v = .ok (c o v)) :
    evalPolys ha cf n order h =
      .ok ((List.range n).map fun v => ∑ o ∈ range (order + 1), c o v * h ^ o) := by
  cases ha
  · exact horner_eq h hc
  · exact ceval_eq h hc

end Eval

section Layout
variable {K : Type*}

theorem index_lt {b order n v o : Nat} (hv : v < n) (ho : o ≤ order) :
    b * (order + 1) * v + b * o + b ≤ n * (order + 1) * b := by
  have h1 : (order + 1) * v + o + 1 ≤ (order + 1) * n := by
    calc (order + 1) * v + o + 1 ≤ (order + 1) * v + (order + 1) := by omega
      _ = (order + 1) * (v + 1) := by ring
      _ ≤ (order + 1) * n := Nat.mul_le_mul_left _ hv
  calc b * (order + 1) * v + b * o + b = b * ((order + 1) * v + o + 1) := by ring
    _ ≤ b * ((order + 1) * n) := Nat.mul_le_mul_left _ h1
    _ = n * (order + 1) * b := by ring

/-- A coefficient is found in the flat array at its index. -/
theorem dOutCf_ok {b order n base : Nat} {tcs : List K} {o v : Nat}
    (hlen : base + n * (order + 1) * b ≤ tcs.length) (hv : v < n) (ho : o ≤ order) :
    ∃ h : ∀ l : Fin b, base + (b * (order + 1) * v + b * o) + l.val < tcs.length,
      dOutCf b order tcs base o v =
        .ok fun l => tcs[base + (b * (order + 1) * v + b * o) + l.val]'(h l) := by
  have := index_lt (b := b) hv ho
  refine ⟨fun l => by have := l.isLt; omega, ?_⟩
  unfold dOutCf loadVec
  rw [dif_pos (by omega)]

/-- Element of a concatenation of blocks of the same size. -/
theorem flatten_getElem? {L : Nat} : ∀ (bs : List (List K)), (∀ x ∈ bs, x.length = L) →
    ∀ (i k : Nat), k < L → bs.flatten[i * L + k]? = (bs[i]?).bind fun x => x[k]? := by
  intro bs
  induction bs with
  | nil => intro _ i k _; simp
  | cons x bs ih =>
    intro h i k hk
    have hx := h x List.mem_cons_self
    rw [List.flatten_cons]
    cases i with
    | zero =>
      rw [Nat.zero_mul, Nat.zero_add, List.getElem?_append_left (by omega)]
      simp
    | succ i =>
      rw [List.getElem?_append_right (by rw [hx, Nat.add_mul]; omega), hx,
        show (i + 1) * L + k - L = i * L + k by rw [Nat.add_mul]; omega,
        ih (fun y hy => h y (List.mem_cons_of_mem _ hy)) i k hk]
      simp

theorem flatten_length {L : Nat} : ∀ (bs : List (List K)), (∀ x ∈ bs, x.length = L) →
    bs.flatten.length = bs.length * L := by
  intro bs
  induction bs with
  | nil => intro _; simp
  | cons x bs ih =>
    intro h
    simp [ih fun y hy => h y (List.mem_cons_of_mem _ hy), h x List.mem_cons_self]
    ring

/-! ### Stores -/

theorem storeVec_hit {b : Nat} (m : Mem K) (off : Nat) (x : Fin b → K) (l : Fin b) :
    storeVec m off x (off + l.val) = some (x l) := by
  unfold storeVec
  rw [dif_pos ⟨by omega, by have := l.isLt; omega⟩]
  congr 2
  ext
  simp

theorem storeVec_miss {b : Nat} (m : Mem K) (off : Nat) (x : Fin b → K) (a : Nat)
    (h : a < off ∨ off + b ≤ a) : storeVec m off x a = m a := by
  unfold storeVec
  rw [dif_neg (by omega)]

/-- Effect of the inner loop of `taylor_write_tc()`. -/
theorem writeTcRow_eq {b order j : Nat} {cf : Nat → Res (Fin b → K)} {c : Nat → Fin b → K}
    (hc : ∀ o ≤ order, cf o = .ok (c o)) (m : Mem K) :
    ∃ m', writeTcRow order cf j m = .ok m' ∧
      (∀ o ≤ order, ∀ l : Fin b, m' ((order + 1) * b * j + o * b + l.val) = some (c o l)) ∧
      (∀ a, a < (order + 1) * b * j ∨ (order + 1) * b * (j + 1) ≤ a → m' a = m a) := by
  have main : ∀ k ≤ order + 1, ∃ m', forRes (List.range k) (fun o m =>
      (cf o).bind fun x => .ok (storeVec m ((order + 1) * b * j + o * b) x)) m = .ok m' ∧
      (∀ o < k, ∀ l : Fin b, m' ((order + 1) * b * j + o * b + l.val) = some (c o l)) ∧
      (∀ a, a < (order + 1) * b * j ∨ (order + 1) * b * j + k * b ≤ a → m' a = m a) := by
    intro k
    induction k with
    | zero => intro _; exact ⟨m, rfl, fun o ho => by omega, fun a _ => rfl⟩
    | succ k ih =>
      intro hk
      obtain ⟨m1, e1, h1, h2⟩ := ih (by omega)
      refine ⟨storeVec m1 ((order + 1) * b * j + k * b) (c k), ?_, ?_, ?_⟩
      · rw [List.range_succ, forRes_append, e1]
        simp [forRes, hc k (by omega)]
      · intro o ho l
        rcases Nat.lt_or_ge o k with h | h
        · rw [storeVec_miss, h1 o h l]
          left
          have : o * b + b ≤ k * b := by
            calc o * b + b = (o + 1) * b := by ring
              _ ≤ k * b := Nat.mul_le_mul_right _ h
          have := l.isLt
          omega
        · have : o = k := by omega
          subst this
          exact storeVec_hit _ _ _ l
      · intro a ha
        have e : (k + 1) * b = k * b + b := by ring
        rw [storeVec_miss _ _ _ _ (by omega), h2 a (by omega)]
  obtain ⟨m', e, h1, h2⟩ := main (order + 1) le_rfl
  refine ⟨m', e, fun o ho => h1 o (by omega), fun a ha => h2 a ?_⟩
  have : (order + 1) * b * (j + 1) = (order + 1) * b * j + (order + 1) * b := by ring
  omega

/-- Effect of writing the rows `lo .. lo + k - 1` in order. -/
theorem writeRows_eq {b order : Nat} {lo : Nat} {c : Nat → Nat → Fin b → K}
    {f : Nat → Mem K → Res (Mem K)} {k : Nat}
    (hf : ∀ i < k, ∀ m, ∃ cf, f i m = writeTcRow order cf (lo + i) m ∧
      ∀ o ≤ order, cf o = .ok (c o (lo + i))) (m : Mem K) :
    ∃ m', forRes (List.range k) f m = .ok m' ∧
      (∀ i < k, ∀ o ≤ order, ∀ l : Fin b,
        m' ((order + 1) * b * (lo + i) + o * b + l.val) = some (c o (lo + i) l)) ∧
      (∀ a, a < (order + 1) * b * lo ∨ (order + 1) * b * (lo + k) ≤ a → m' a = m a) := by
  induction k with
  | zero => exact ⟨m, rfl, fun i hi => by omega, fun a _ => rfl⟩
  | succ k ih =>
    obtain ⟨m1, e1, h1, h2⟩ := ih fun i hi => hf i (by omega)
    obtain ⟨cf, ef, hcf⟩ := hf k (by omega) m1
    obtain ⟨m2, e2, h3, h4⟩ := writeTcRow_eq (j := lo + k) hcf m1
    refine ⟨m2, ?_, ?_, ?_⟩
    · rw [List.range_succ, forRes_append, e1]
      simp [forRes, ef, e2]
    · intro i hi o ho l
      rcases Nat.lt_or_ge i k with h | h
      · rw [h4, h1 i h o ho l]
        left
        have hb := index_lt (b := b) (v := lo + i) (n := lo + k) (by omega) ho
        have e : (order + 1) * b * (lo + i) = b * (order + 1) * (lo + i) := by ring
        have e' : (order + 1) * b * (lo + k) = (lo + k) * (order + 1) * b := by ring
        have e'' : o * b = b * o := by ring
        have := l.isLt
        omega
      · have : i = k := by omega
        subst this
        exact h3 o ho l
    · intro a ha
      have e : (order + 1) * b * (lo + k) ≥ (order + 1) * b * lo := Nat.mul_le_mul_left _ (by omega)
      have e' : (order + 1) * b * (lo + k) ≤ (order + 1) * b * (lo + (k + 1)) :=
        Nat.mul_le_mul_left _ (by omega)
      rw [h4 a (by rw [show lo + k + 1 = lo + (k + 1) by omega]; omega), h2 a (by omega)]

end Layout

end Heyoka.Dense
