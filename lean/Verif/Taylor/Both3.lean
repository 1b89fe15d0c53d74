import Verif.Taylor.Both2
import Verif.Expr.BuildLemmas

/-!
# The recurrences in the two modes: the arithmetic operations and all the functions
-/

set_option linter.unusedSectionVars false
set_option linter.unusedSimpArgs false
set_option linter.unusedVariables false

namespace Heyoka.Taylor

open Heyoka.Sym

variable {K : Type} [Field K] [LinearOrder K] [Interp K] [TConst K]
variable {rd : Nat → Nat → Res (V K)} {g : Nat → Nat → V K} {n a b c d e f h k l : Nat}

local macro "ev" "[" ls:Lean.Parser.Tactic.simpLemma,* "]" : tactic =>
  `(tactic| simp only [Res.bind_eq, Res.bind_ok, Res.pure_eq, if_true, $ls,*])

/-- The derivatives of an argument up to the order `n` can be read. -/
def ARd (rd : Nat → Nat → Res (V K)) (g : Nat → Nat → V K) (n : Nat) (x : TArg K) : Prop :=
  ∀ i, x = .u i → RdK rd g i (n + 1)

theorem argVal_okK {x : TArg K} (hx : ARd rd g n x) {o : Nat} (ho : o ≤ n) : ∃ v, argVal rd o x = .ok v := by
  cases x with
  | cst m c => exact ⟨_, rfl⟩
  | u i => exact ⟨_, (hx i rfl).at (by omega)⟩

theorem argVals_okK {as : List (TArg K)} (hx : ∀ x ∈ as, ARd rd g n x) {o : Nat} (ho : o ≤ n) :
    ∃ vs, argVals rd o as = .ok vs ∧ vs.length = as.length := by
  induction as with
  | nil => exact ⟨[], rfl, rfl⟩
  | cons x as ih =>
    obtain ⟨v, h1⟩ := argVal_okK (hx x (by simp)) ho
    obtain ⟨vs, h2, h3⟩ := ih fun y hy => hx y (by simp [hy])
    exact ⟨v :: vs, by rw [argVals, h1, h2]; rfl, by simp [h3]⟩

theorem mapArgs_okK {G : TArg K → Res (V K)} {as : List (TArg K)} (hx : ∀ x ∈ as, ∃ v, G x = .ok v) :
    ∃ vs, mapArgs G as = .ok vs ∧ vs.length = as.length := by
  induction as with
  | nil => exact ⟨[], rfl, rfl⟩
  | cons x as ih =>
    obtain ⟨v, h1⟩ := hx x (by simp)
    obtain ⟨vs, h2, h3⟩ := ih fun y hy => hx y (by simp [hy])
    exact ⟨v :: vs, by rw [mapArgs, h1, h2]; rfl, by simp [h3]⟩

theorem mapArgs_eq {G G' : TArg K → Res (V K)} {as : List (TArg K)} (hx : ∀ x ∈ as, G x = G' x) :
    mapArgs G as = mapArgs G' as := by
  induction as with
  | nil => rfl
  | cons x as ih => rw [mapArgs, mapArgs, hx x (by simp), ih fun y hy => hx y (by simp [hy])]

theorem Both.refl {x : Res (V K)} (h : ∃ v, x = .ok v) : Both x x := by
  obtain ⟨v, h⟩ := h
  exact ⟨v, h, h⟩

theorem Both.eq {x y : Res (V K)} (h : Both x y) : x = y := by
  obtain ⟨v, h1, h2⟩ := h
  rw [h1, h2]

theorem sum_both {as : List (TArg K)} (hne : as ≠ []) (hx : ∀ x ∈ as, ARd rd g n x) :
    Both (sumDiff rd n as) (sumDiffC rd n as) := by
  obtain ⟨vs, h1, h2⟩ := argVals_okK hx (Nat.le_refl n)
  have hv : vs ≠ [] := by rintro rfl; exact hne (List.length_eq_zero_iff.1 h2.symm)
  refine Both.refl ⟨vs.sum, ?_⟩
  rw [sumDiff, h1, Res.bind_eq, Res.bind_ok, psum_okK hv]

theorem prodVV_both (hx : RdK rd g a (n + 1)) (hy : RdK rd g b (n + 1)) :
    Both (prodVV rd n a b) (accR 0 (n + 1) fun j => do
      let x ← rd a (n - j)
      let y ← rd b j
      pure (x * y)) := by
  have hbody : ∀ j, 0 ≤ j → j < n + 1 → (do
      let x ← rd a (n - j)
      let y ← rd b j
      pure (x * y)) = Res.ok (g a (n - j) * g b j) := by
    intro j _ h2
    ev [hx.at (by omega : n - j < n + 1), hy.at h2]
  rw [prodVV, sumR_okK (by omega) hbody, accR_ok hbody]
  exact both_ok rfl

/-- A product whose first factor is not the literal −1. -/
theorem prod_both {x y : TArg K} (hneg : ∀ c, x = .cst true c → c ≠ -1) (hx : ARd rd g n x) (hy : ARd rd g n y) :
    Both (prodDiff rd n x y) (prodDiffC rd n x y) := by
  cases x with
  | cst m x =>
    have hm : ¬(m = true ∧ x = -1) := by
      rintro ⟨rfl, h⟩
      exact hneg x rfl h
    cases y with
    | cst m' y =>
      rw [prodDiff, prodDiffC, if_neg (by tauto)]
      exact both_ok rfl
    | u b =>
      ev [prodDiff, prodDiffC, (hy b rfl).at (Nat.lt_succ_self n), if_neg hm]
      exact both_ok (V.mul_comm _ _)
  | u a =>
    cases y with
    | cst m' y =>
      ev [prodDiff, prodDiffC, (hx a rfl).at (Nat.lt_succ_self n)]
      exact both_ok (V.mul_comm _ _)
    | u b =>
      rw [prodDiff, prodDiffC]
      exact prodVV_both (hx a rfl) (hy b rfl)

/-- A product whose first factor is the literal −1. -/
theorem neg_both {y : TArg K} (hy : ARd rd g n y) :
    Both (prodDiff rd n (.cst true (-1)) y) (negDiffC rd n (.cst true (-1)) y) := by
  cases y with
  | cst m' y =>
    rw [prodDiff, negDiffC]
    by_cases hn : n = 0
    · rw [if_pos ⟨rfl, rfl, hn⟩, if_pos hn]
      exact both_ok rfl
    · rw [if_neg (by tauto), if_neg hn, if_neg hn]
      exact both_ok rfl
  | u b =>
    ev [prodDiff, negDiffC, (hy b rfl).at (Nat.lt_succ_self n), true_and]
    exact both_ok rfl

theorem sqSum_ok {a hi : Nat} (hlt : a < hi) (hx : RdK rd g b (n + 1)) (h : hi ≤ n + 1) :
    sumR a hi (fun j => do
      let x ← rd b (n - j)
      let y ← rd b j
      pure (x * y)) = .ok (vsum a hi fun j => g b (n - j) * g b j) :=
  sumR_okK hlt fun j h1 h2 => by ev [hx.at (by omega : n - j < n + 1), hx.at (by omega : j < n + 1)]

theorem sqAcc_ok {a hi : Nat} (hx : RdK rd g b (n + 1)) (h : hi ≤ n + 1) :
    sqAcc rd b n a hi = .ok (vsum a hi fun j => g b (n - j) * g b j) :=
  accR_ok fun j h1 h2 => by ev [hx.at (by omega : n - j < n + 1), hx.at (by omega : j < n + 1)]

theorem square_both (hn : n ≠ 0) (hb : RdK rd g b (n + 1)) : Both (squareDiff rd n b) (squareDiffC rd n b) := by
  by_cases ho : n % 2 = 1
  · have h1 := sqSum_ok (a := 0) (hi := (n - 1) / 2 + 1) (by omega) hb (by omega)
    simp only [Res.bind_eq, Res.pure_eq] at h1
    ev [squareDiff, squareDiffC, if_neg hn, if_pos ho, h1,
      sqAcc_ok (a := 0) (hi := (n - 1) / 2 + 1) hb (by omega)]
    exact both_ok rfl
  · have h1 := sqSum_ok (a := 0) (hi := (n - 2) / 2 + 1) (by omega) hb (by omega)
    simp only [Res.bind_eq, Res.pure_eq] at h1
    ev [squareDiff, squareDiffC, if_neg hn, if_neg ho, h1,
      sqAcc_ok (a := 0) (hi := (n - 2) / 2 + 1) hb (by omega), hb.at (by omega : n / 2 < n + 1)]
    exact both_ok rfl

theorem sqrt_both (hn : n ≠ 0) (ha : RdK rd g a n) (hb : RdK rd g b (n + 1)) :
    Both (sqrtDiff rd n a b) (sqrtDiffC rd n a b) := by
  have hbn := hb.at (Nat.lt_succ_self n)
  have ha0 := ha.at (Nat.pos_of_ne_zero hn)
  have hsum : ∀ hi, 1 < hi → hi ≤ n → (sumR 1 hi fun j => (rd a (n - j)).bind fun x => (rd a j).bind fun y => Res.ok (x * y)) =
      .ok (vsum 1 hi fun j => g a (n - j) * g a j) := fun hi h1 h2 =>
    sumR_okK h1 fun j h3 h4 => by ev [ha.at (by omega : n - j < n), ha.at (by omega : j < n)]
  have hacc : ∀ hi, hi ≤ n → sqAcc rd a n 1 hi = .ok (vsum 1 hi fun j => g a (n - j) * g a j) := fun hi h2 =>
    accR_ok fun j h3 h4 => by ev [ha.at (by omega : n - j < n), ha.at (by omega : j < n)]
  by_cases ho : n % 2 = 1
  · by_cases h1 : 1 < (n - 1) / 2 + 1
    · ev [sqrtDiff, sqrtDiffC, if_neg hn, if_pos ho, if_pos h1, ha0, hbn, hsum _ h1 (by omega), hacc _ (by omega : (n - 1) / 2 + 1 ≤ n)]
      exact both_ok rfl
    · ev [sqrtDiff, sqrtDiffC, if_neg hn, if_pos ho, if_neg h1, ha0, hbn, hacc _ (by omega : (n - 1) / 2 + 1 ≤ n)]
      rw [vsum_empty (by omega), add_zero, V.sub_zero]
      exact both_ok rfl
  · have hm := ha.at (by omega : n / 2 < n)
    by_cases h1 : 1 < (n - 2) / 2 + 1
    · ev [sqrtDiff, sqrtDiffC, if_neg hn, if_neg ho, if_pos h1, ha0, hbn, hm, hsum _ h1 (by omega),
        hacc _ (by omega : (n - 2) / 2 + 1 ≤ n)]
      exact both_ok rfl
    · ev [sqrtDiff, sqrtDiffC, if_neg hn, if_neg ho, if_neg h1, ha0, hbn, hm, hacc _ (by omega : (n - 2) / 2 + 1 ≤ n)]
      rw [vsum_empty (by omega), add_zero, V.sub_zero]
      exact both_ok rfl

theorem sub_both {x y : TArg K} (hx : ARd rd g n x) (hy : ARd rd g n y) :
    Both (subDiff rd n x y) (subDiffC rd n x y) := by
  cases x with
  | cst m x =>
    cases y with
    | cst m' y => exact both_ok rfl
    | u b =>
      have hb := (hy b rfl).at (Nat.lt_succ_self n)
      by_cases hn : n = 0
      · subst hn
        ev [subDiff, subDiffC, hb]
        exact both_ok rfl
      · ev [subDiff, subDiffC, hb, if_neg hn]
        exact both_ok rfl
  | u a =>
    have ha := (hx a rfl).at (Nat.lt_succ_self n)
    cases y with
    | cst m' y =>
      by_cases hn : n = 0
      · subst hn
        ev [subDiff, subDiffC, ha]
        exact both_ok rfl
      · ev [subDiff, subDiffC, ha, if_neg hn]
        exact both_ok rfl
    | u b =>
      ev [subDiff, subDiffC, ha, (hy b rfl).at (Nat.lt_succ_self n)]
      exact both_ok rfl

theorem div_both {x y : TArg K} (ha : RdK rd g a n) (hx : ARd rd g n x) (hy : ARd rd g n y) :
    Both (divDiff rd n a x y) (divDiffC rd n a x y) := by
  have key : ∀ {c}, RdK rd g c (n + 1) → n ≠ 0 → (sumR 1 (n + 1) fun j => (rd a (n - j)).bind fun anj => (rd c j).bind
      fun cj => Res.ok (anj * cj)) = .ok (vsum 1 (n + 1) fun j => g c j * g a (n - j)) := fun {c} hc hn =>
    sumR_okK (by omega) fun j h1 h2 => by
      ev [ha.at (by omega : n - j < n), hc.at h2]
      rw [V.mul_comm]
  have kacc : ∀ {c}, RdK rd g c (n + 1) → divAcc rd n a c = .ok (vsum 1 (n + 1) fun j => g c j * g a (n - j)) := fun {c} hc =>
    accR_ok fun j h1 h2 => by ev [ha.at (by omega : n - j < n), hc.at h2]
  cases y with
  | cst m' y =>
    cases x with
    | cst m x => exact both_ok rfl
    | u b =>
      ev [divDiff, divDiffC, (hx b rfl).at (Nat.lt_succ_self n)]
      exact both_ok rfl
  | u c =>
    have hc := hy c rfl
    cases x with
    | cst m x =>
      by_cases hn : n = 0
      · subst hn
        ev [divDiff, divDiffC, argVal, hc.at (Nat.succ_pos _)]
        exact both_ok rfl
      · ev [divDiff, divDiffC, if_neg hn, key hc hn, kacc hc, hc.at (Nat.succ_pos _)]
        exact both_ok rfl
    | u b =>
      have hb := hx b rfl
      by_cases hn : n = 0
      · subst hn
        ev [divDiff, divDiffC, argVal, kacc hc, hc.at (Nat.succ_pos _), hb.at (Nat.succ_pos _)]
        rw [vsum_empty (by omega), V.sub_zero]
        exact both_ok rfl
      · ev [divDiff, divDiffC, if_neg hn, key hc hn, kacc hc, hc.at (Nat.succ_pos _), hb.at (Nat.lt_succ_self n)]
        exact both_ok rfl

variable [CodeInterp K]

theorem sqHalf_both {x : TArg K} (hx : ARd rd g n x) {hi : Nat} (h0 : 0 < hi) (h1 : hi ≤ n + 1) :
    Both (sqHalf rd n hi x) (sqHalfC rd n hi x) := by
  cases x with
  | cst m c =>
    rw [sqHalf, sqHalfC, if_pos h0]
    exact both_ok rfl
  | u i =>
    rw [sqHalf, sqHalfC, sqSum_ok h0 (hx i rfl) h1, sqAcc_ok (hx i rfl) h1]
    exact both_ok rfl

theorem sqEven_both {x : TArg K} (hx : ARd rd g n x) : Both (sqEven rd n x) (sqEvenC rd n x) := by
  have hmid : Both (sqMid rd n x) (sqMidC rd n x) := by
    cases x with
    | cst m c =>
      rw [sqMid, sqMidC, V.zero_mul_zero]
      exact both_ok rfl
    | u i =>
      ev [sqMid, sqMidC, (hx i rfl).at (by omega : n / 2 < n + 1)]
      exact both_ok rfl
  obtain ⟨v, h1, h2⟩ := hmid
  by_cases hn : 0 < n
  · by_cases hev : (n - 2) / 2 + 1 ≤ n + 1
    · obtain ⟨w, h3, h4⟩ := sqHalf_both hx (Nat.succ_pos ((n - 2) / 2)) hev
      ev [sqEven, sqEvenC, if_pos hn, h1, h2, h3, h4]
      exact both_ok rfl
    · omega
  · ev [sqEven, sqEvenC, if_neg hn, h1, h2, zero_add]
    exact both_ok rfl

theorem sumSq_both {as : List (TArg K)} (hne : as ≠ []) (hx : ∀ x ∈ as, ARd rd g n x) :
    Both (sumSqDiff rd n as) (sumSqDiffC rd n as) := by
  by_cases ho : n % 2 = 1
  · have h0 : ∀ x ∈ as, Both (sqHalf rd n ((n - 1) / 2 + 1) x) (sqHalfC rd n ((n - 1) / 2 + 1) x) := fun x h =>
      sqHalf_both (hx x h) (by omega) (by omega)
    obtain ⟨vs, h1, h2⟩ := mapArgs_okK fun x h => (h0 x h).imp fun v hv => hv.1
    have hv : vs ≠ [] := by rintro rfl; exact hne (List.length_eq_zero_iff.1 h2.symm)
    ev [sumSqDiff, sumSqDiffC, if_pos ho, ← mapArgs_eq fun x h => (h0 x h).eq, h1, psum_okK hv]
    exact both_ok rfl
  · have h0 : ∀ x ∈ as, Both (sqEven rd n x) (sqEvenC rd n x) := fun x h => sqEven_both (hx x h)
    obtain ⟨vs, h1, h2⟩ := mapArgs_okK fun x h => (h0 x h).imp fun v hv => hv.1
    have hv : vs ≠ [] := by rintro rfl; exact hne (List.length_eq_zero_iff.1 h2.symm)
    ev [sumSqDiff, sumSqDiffC, if_neg ho, ← mapArgs_eq fun x h => (h0 x h).eq, h1, psum_okK hv]
    exact both_ok rfl

theorem relu_both {s : K} {x : TArg K} (hx : ARd rd g n x) : Both (reluDiff s rd n x) (reluDiffC s rd n x) := by
  cases x with
  | cst m c => exact cst_both
  | u i =>
    have hi := hx i rfl
    by_cases hs : s = 0
    · ev [reluDiff, reluDiffC, hi.at (Nat.succ_pos _), hi.at (Nat.lt_succ_self n), if_pos hs]
      exact both_ok rfl
    · ev [reluDiff, reluDiffC, hi.at (Nat.succ_pos _), hi.at (Nat.lt_succ_self n), if_neg hs]
      exact both_ok rfl

theorem relup_both {s : K} {x : TArg K} (hx : ARd rd g n x) : Both (relupDiff s rd n x) (relupDiffC s rd n x) := by
  cases x with
  | cst m c => exact cst_both
  | u i =>
    have hi := hx i rfl
    by_cases hn : n = 0
    · ev [relupDiff, relupDiffC, hi.at (Nat.succ_pos _), if_pos hn]
      exact both_ok rfl
    · ev [relupDiff, relupDiffC, hi.at (Nat.succ_pos _), if_neg hn]
      exact both_ok rfl

theorem select_both {x y z : TArg K} (hx : ARd rd g n x) (hy : ARd rd g n y) (hz : ARd rd g n z) :
    Both (selectDiff rd n x y z) (selectDiffC rd n x y z) := by
  obtain ⟨v, h1⟩ := argVal_okK hx (Nat.zero_le n)
  obtain ⟨w, h2⟩ := argVal_okK hy (Nat.le_refl n)
  obtain ⟨t, h3⟩ := argVal_okK hz (Nat.le_refl n)
  have h4 : condC rd x = .ok v := by
    cases x with
    | cst m c => exact h1
    | u i => exact h1
  ev [selectDiff, selectDiffC, h1, h2, h3, h4]
  exact both_ok rfl

theorem bool_both {fn : Fn K} {as : List (TArg K)} (hx : ∀ x ∈ as, ARd rd g n x) :
    Both (boolDiff fn rd n as) (boolDiffC fn rd n as) := by
  obtain ⟨vs, h1, -⟩ := argVals_okK hx (Nat.zero_le n)
  by_cases hn : n = 0
  · ev [boolDiff, boolDiffC, h1, if_pos hn]
    exact both_ok rfl
  · ev [boolDiff, boolDiffC, if_neg hn]
    exact both_ok rfl

theorem un_both {fn : Fn K} {x : TArg K} {var varC : Nat → Res (V K)} (hx : ARd rd g n x)
    (h : ∀ b, RdK rd g b (n + 1) → Both (var b) (varC b)) :
    Both (unDiff fn n [] [x] var) (unDiffC fn n [x] varC) := by
  cases x with
  | cst m c => exact cst_both
  | u i =>
    simp only [unDiff, unDiffC, ne_eq, not_true, if_false]
    exact h i (hx i rfl)

theorem un1_both {fn : Fn K} {x : TArg K} {d : Nat} {var varC : Nat → Nat → Res (V K)} (hx : ARd rd g n x)
    (h : ∀ b, RdK rd g b (n + 1) → Both (var d b) (varC d b)) :
    Both (unDiff1 fn n [d] [x] var) (unDiff1C fn n [d] [x] varC) := by
  cases x with
  | cst m c => exact cst_both
  | u i => exact h i (hx i rfl)

end Heyoka.Taylor
