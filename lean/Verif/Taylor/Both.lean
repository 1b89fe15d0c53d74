import Verif.Taylor.CModel
import Verif.Taylor.Wf
import Verif.Props.Pairwise
import Mathlib.Tactic.Ring

/-!
# The recurrences in the two modes

If the derivatives of lower order are available the recurrences succeed, in default and in compact mode, with the
same result.
-/

set_option linter.unusedSectionVars false
set_option linter.unusedSimpArgs false
set_option linter.unusedVariables false

namespace Heyoka.Taylor

open Heyoka.Sym

variable {K : Type}

namespace V
variable [Field K]

theorem mul_assoc (x y z : V K) : x * y * z = x * (y * z) := by
  induction x using ind <;> induction y using ind <;> induction z using ind <;> simp [_root_.mul_assoc]

theorem neg_mul (x y : V K) : -x * y = -(x * y) := by
  induction x using ind <;> induction y using ind <;> simp

theorem neg_add (x y : V K) : -(x + y) = -x + -y := by
  induction x using ind <;> induction y using ind <;> simp [_root_.add_comm]

theorem sub_eq (x y : V K) : x - y = x + -y := by
  induction x using ind <;> induction y using ind <;> simp [sub_eq_add_neg]

theorem sub_zero (x : V K) : x - 0 = x := by
  induction x using ind <;> simp [zero_def]

theorem neg_zero : -(0 : V K) = 0 := by simp [zero_def]

theorem zero_mul_zero : (0 : V K) * 0 = 0 := by simp [zero_def]

theorem nat_one : (nat 1 : V K) = 1 := by simp [nat_def, one_def]

theorem div_neg [DecidableEq K] (x y : V K) : x / -y = -(x / y) := by
  induction x using ind with
  | hn => simp
  | hf a =>
    induction y using ind with
    | hn => simp
    | hf b =>
      rw [fin_neg, fin_div, fin_div]
      by_cases h : b = 0
      · simp [h]
      · simp [h, _root_.div_neg]

theorem sum_neg (l : List Nat) (h : Nat → V K) : (l.map fun j => -h j).sum = -(l.map h).sum := by
  induction l with
  | nil => simp [neg_zero]
  | cons j l ih => simp [ih, neg_add]

end V

section
variable [Field K]

/-- The sum of `h j` for `j` in `[a, b)`. -/
def vsum (a b : Nat) (h : Nat → V K) : V K := ((List.range' a (b - a)).map h).sum

theorem vsum_empty {a b : Nat} (hab : b ≤ a) (h : Nat → V K) : vsum a b h = 0 := by
  rw [vsum, Nat.sub_eq_zero_of_le hab]
  rfl

theorem vsum_congr {a b : Nat} {h h' : Nat → V K} (hh : ∀ j, h j = h' j) : vsum a b h = vsum a b h' := by
  rw [vsum, vsum, List.map_congr_left fun j _ => hh j]

theorem vsum_neg (a b : Nat) (h : Nat → V K) : vsum a b (fun j => -h j) = -vsum a b h := V.sum_neg _ _

theorem collect_okK {body : Nat → Res (V K)} {h : Nat → V K} {l : List Nat} (hb : ∀ j ∈ l, body j = .ok (h j)) :
    collect body l = .ok (l.map h) := by
  induction l with
  | nil => rfl
  | cons j l ih =>
    rw [collect, hb j (by simp), ih fun i hi => hb i (by simp [hi])]
    rfl

theorem psum_okK {l : List (V K)} (hl : l ≠ []) : psum l = .ok l.sum := by
  cases l with
  | nil => exact absurd rfl hl
  | cons a l => rw [psum, Util.pairwiseSum_eq_sum]

theorem sumR_okK {a b : Nat} (hab : a < b) {body : Nat → Res (V K)} {h : Nat → V K}
    (hb : ∀ j, a ≤ j → j < b → body j = .ok (h j)) : sumR a b body = .ok (vsum a b h) := by
  rw [sumR, collect_okK (h := h) fun j hj => ?_]
  · rw [Res.bind_eq, Res.bind_ok, psum_okK, vsum]
    simp
    omega
  · rw [List.mem_range'_1] at hj
    exact hb j hj.1 (by omega)

theorem accLoop_ok {body : Nat → Res (V K)} {h : Nat → V K} {l : List Nat} (hb : ∀ j ∈ l, body j = .ok (h j)) :
    ∀ acc, accLoop body l acc = .ok (acc + (l.map h).sum) := by
  induction l with
  | nil => intro acc; simp [accLoop]
  | cons j l ih =>
    intro acc
    rw [accLoop, hb j (by simp), Res.bind_eq, Res.bind_ok, ih fun i hi => hb i (by simp [hi])]
    simp [add_assoc]

theorem accR_ok {a b : Nat} {body : Nat → Res (V K)} {h : Nat → V K}
    (hb : ∀ j, a ≤ j → j < b → body j = .ok (h j)) : accR a b body = .ok (vsum a b h) := by
  rw [accR, accLoop_ok (h := h) fun j hj => ?_, zero_add, vsum]
  rw [List.mem_range'_1] at hj
  exact hb j hj.1 (by omega)

end

section
variable [Field K] [LinearOrder K] [Interp K] [TConst K]
variable {rd : Nat → Nat → Res (V K)} {g : Nat → Nat → V K} {n a b c d e f h k l : Nat}

/-- The derivatives of the `u` variable `u` of the orders below `m` can be read. -/
def RdK (rd : Nat → Nat → Res (V K)) (g : Nat → Nat → V K) (u m : Nat) : Prop := ∀ o < m, rd u o = .ok (g u o)

/-- The two modes succeed and have the same result. -/
def Both (x y : Res (V K)) : Prop := ∃ v, x = .ok v ∧ y = .ok v

theorem Both.of {x y : Res (V K)} {v w : V K} (hx : x = .ok v) (hy : y = .ok w) (h : v = w) : Both x y :=
  ⟨v, hx, h ▸ hy⟩

theorem RdK.zero {u m : Nat} (h : RdK rd g u m) (hm : 0 < m) : rd u 0 = .ok (g u 0) := h 0 hm

theorem RdK.at {u m o : Nat} (h : RdK rd g u m) (ho : o < m) : rd u o = .ok (g u o) := h o ho

theorem jsum_okK {hi : Nat} (hn : 0 < n) (h1 : 1 < hi) (hc : RdK rd g c n) (hb : RdK rd g b hi) :
    jsum rd c b n hi = .ok (vsum 1 hi fun j => V.nat j * (g c (n - j) * g b j)) := by
  rw [jsum]
  exact sumR_okK h1 fun j hj1 hj2 => by rw [hc (n - j) (by omega), hb j hj2]; rfl

theorem jacc_ok {hi : Nat} (hn : 0 < n) (hc : RdK rd g c n) (hb : RdK rd g b hi) :
    jacc rd c b n hi = .ok (vsum 1 hi fun j => V.nat j * (g c (n - j) * g b j)) := by
  rw [jacc]
  exact accR_ok fun j hj1 hj2 => by rw [hc (n - j) (by omega), hb j hj2]; rfl

end

end Heyoka.Taylor
