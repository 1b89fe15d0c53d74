import Verif.Taylor.Both

/-!
# The recurrences in the two modes: the elementary functions
-/

set_option linter.unusedSectionVars false
set_option linter.unusedSimpArgs false
set_option linter.unusedVariables false

namespace Heyoka.Taylor

open Heyoka.Sym

variable {K : Type} [Field K] [LinearOrder K] [Interp K] [TConst K]
variable {rd : Nat → Nat → Res (V K)} {g : Nat → Nat → V K} {n a b c d e f h k l : Nat}

local macro "ev" "[" ls:Lean.Parser.Tactic.simpLemma,* "]" : tactic =>
  `(tactic| simp only [Res.bind_eq, Res.bind_ok, Res.pure_eq, if_true, $ls,*])

theorem both_ok {v w : V K} (h : v = w) : Both (.ok v) (.ok w) := ⟨v, rfl, h ▸ rfl⟩

theorem cst_both {fn : Fn K} {cs : List (V K)} : Both (cstDiff fn n cs) (cstDiffC fn n cs) := ⟨_, rfl, rfl⟩

theorem addSum_okK (hn : n ≠ 0) {body : Nat → Res (V K)} {t : Nat → V K} {x : V K}
    (hb : ∀ j, 1 ≤ j → j < n → body j = .ok (t j)) : addSum n x (sumR 1 n body) = .ok (x + vsum 1 n t) := by
  rw [addSum]
  by_cases h1 : 1 < n
  · rw [if_pos h1, sumR_okK h1 hb]
    rfl
  · rw [if_neg h1, vsum_empty (by omega), add_zero]
    rfl

theorem exp_both (ha : RdK rd g a n) (hb : RdK rd g b (n + 1)) :
    Both (expDiff rd n a b) (expDiffC rd n a b) := by
  by_cases hn : n = 0
  · subst hn
    ev [expDiff, expDiffC, hb.at (Nat.succ_pos _)]
    exact both_ok rfl
  · have hp : 0 < n := Nat.pos_of_ne_zero hn
    ev [expDiff, expDiffC, if_neg hn, jsum_okK hp (by omega : 1 < n + 1) ha hb, jacc_ok hp ha hb, hb.at (Nat.lt_succ_self n)]
    exact both_ok (rfl)

theorem sin_both {fn : Fn K} (hc : RdK rd g c n) (hb : RdK rd g b (n + 1)) :
    Both (sinDiff fn rd n c b) (sinDiffC fn rd n c b) := by
  by_cases hn : n = 0
  · subst hn
    ev [sinDiff, sinDiffC, hb.at (Nat.succ_pos _)]
    exact both_ok rfl
  · have hp : 0 < n := Nat.pos_of_ne_zero hn
    ev [sinDiff, sinDiffC, if_neg hn, jsum_okK hp (by omega : 1 < n + 1) hc hb, jacc_ok hp hc hb, hb.at (Nat.lt_succ_self n)]
    exact both_ok (rfl)

theorem cos_both {fn : Fn K} (hc : RdK rd g c n) (hb : RdK rd g b (n + 1)) :
    Both (cosDiff fn rd n c b) (cosDiffC fn rd n c b) := by
  by_cases hn : n = 0
  · subst hn
    ev [cosDiff, cosDiffC, hb.at (Nat.succ_pos _)]
    exact both_ok rfl
  · have hp : 0 < n := Nat.pos_of_ne_zero hn
    ev [cosDiff, cosDiffC, if_neg hn, jsum_okK hp (by omega : 1 < n + 1) hc hb, jacc_ok hp hc hb, hb.at (Nat.lt_succ_self n)]
    exact both_ok (rfl)

theorem tan_both (hc : RdK rd g c n) (hb : RdK rd g b (n + 1)) :
    Both (tanDiff rd n c b) (tanDiffC rd n c b) := by
  by_cases hn : n = 0
  · subst hn
    ev [tanDiff, tanDiffC, hb.at (Nat.succ_pos _)]
    exact both_ok rfl
  · have hp : 0 < n := Nat.pos_of_ne_zero hn
    ev [tanDiff, tanDiffC, if_neg hn, jsum_okK hp (by omega : 1 < n + 1) hc hb, jacc_ok hp hc hb, hb.at (Nat.lt_succ_self n)]
    exact both_ok (rfl)

theorem tanh_both (hc : RdK rd g c n) (hb : RdK rd g b (n + 1)) :
    Both (tanhDiff rd n c b) (tanhDiffC rd n c b) := by
  by_cases hn : n = 0
  · subst hn
    ev [tanhDiff, tanhDiffC, hb.at (Nat.succ_pos _)]
    exact both_ok rfl
  · have hp : 0 < n := Nat.pos_of_ne_zero hn
    ev [tanhDiff, tanhDiffC, if_neg hn, jsum_okK hp (by omega : 1 < n + 1) hc hb, jacc_ok hp hc hb, hb.at (Nat.lt_succ_self n)]
    exact both_ok (rfl)

theorem erf_both (hc : RdK rd g c n) (hb : RdK rd g b (n + 1)) :
    Both (erfDiff rd n c b) (erfDiffC rd n c b) := by
  by_cases hn : n = 0
  · subst hn
    ev [erfDiff, erfDiffC, hb.at (Nat.succ_pos _)]
    exact both_ok rfl
  · have hp : 0 < n := Nat.pos_of_ne_zero hn
    ev [erfDiff, erfDiffC, if_neg hn, jsum_okK hp (by omega : 1 < n + 1) hc hb, jacc_ok hp hc hb, hb.at (Nat.lt_succ_self n)]
    exact both_ok (by rw [V.mul_comm (V.nat n)])

theorem asin_both {fn : Fn K} (ha : RdK rd g a n) (hc : RdK rd g c n) (hb : RdK rd g b (n + 1)) :
    Both (asinDiff fn rd n a c b) (asinDiffC fn rd n a c b) := by
  by_cases hn : n = 0
  · subst hn
    ev [asinDiff, asinDiffC, hb.at (Nat.succ_pos _)]
    exact both_ok rfl
  · have hp : 0 < n := Nat.pos_of_ne_zero hn
    ev [asinDiff, asinDiffC, if_neg hn, jacc_ok hp hc ha, hb.at (Nat.lt_succ_self n), hc.at hp]
    by_cases h1 : n = 1
    · rw [if_pos h1]
      refine both_ok ?_
      rw [vsum_empty (by omega), h1, V.nat_one]
      simp only [V.one_mul, V.sub_zero, add_zero, V.div_neg]
    · rw [if_neg h1]
      ev [jsum_okK hp (by omega : 1 < n) hc ha]
      exact both_ok rfl

theorem acos_both (ha : RdK rd g a n) (hc : RdK rd g c n) (hb : RdK rd g b (n + 1)) :
    Both (acosDiff rd n a c b) (acosDiffC rd n a c b) := by
  by_cases hn : n = 0
  · subst hn
    ev [acosDiff, acosDiffC, hb.at (Nat.succ_pos _)]
    exact both_ok rfl
  · have hp : 0 < n := Nat.pos_of_ne_zero hn
    ev [acosDiff, acosDiffC, if_neg hn, jacc_ok hp hc ha, hb.at (Nat.lt_succ_self n), hc.at hp]
    by_cases h1 : n = 1
    · rw [if_pos h1]
      refine both_ok ?_
      rw [vsum_empty (by omega), h1, V.nat_one]
      simp only [V.one_mul, V.sub_zero, add_zero, V.div_neg]
    · rw [if_neg h1]
      ev [jsum_okK hp (by omega : 1 < n) hc ha]
      exact both_ok rfl

theorem atan_both (ha : RdK rd g a n) (hc : RdK rd g c n) (hb : RdK rd g b (n + 1)) :
    Both (atanDiff rd n a c b) (atanDiffC rd n a c b) := by
  by_cases hn : n = 0
  · subst hn
    ev [atanDiff, atanDiffC, hb.at (Nat.succ_pos _)]
    exact both_ok rfl
  · have hp : 0 < n := Nat.pos_of_ne_zero hn
    ev [atanDiff, atanDiffC, if_neg hn, jacc_ok hp hc ha, hb.at (Nat.lt_succ_self n), hc.at hp]
    by_cases h1 : n = 1
    · rw [if_pos h1]
      refine both_ok ?_
      rw [vsum_empty (by omega), h1, V.nat_one]
      simp only [V.one_mul, V.sub_zero, add_zero, V.div_neg]
    · rw [if_neg h1]
      ev [jsum_okK hp (by omega : 1 < n) hc ha]
      exact both_ok rfl

theorem atanh_both (ha : RdK rd g a n) (hc : RdK rd g c n) (hb : RdK rd g b (n + 1)) :
    Both (atanhDiff rd n a c b) (atanhDiffC rd n a c b) := by
  by_cases hn : n = 0
  · subst hn
    ev [atanhDiff, atanhDiffC, hb.at (Nat.succ_pos _)]
    exact both_ok rfl
  · have hp : 0 < n := Nat.pos_of_ne_zero hn
    ev [atanhDiff, atanhDiffC, if_neg hn, jacc_ok hp hc ha, hb.at (Nat.lt_succ_self n), hc.at hp]
    by_cases h1 : n = 1
    · rw [if_pos h1]
      refine both_ok ?_
      rw [vsum_empty (by omega), h1, V.nat_one]
      simp only [V.one_mul, V.sub_zero, add_zero, V.div_neg]
    · rw [if_neg h1]
      ev [jsum_okK hp (by omega : 1 < n) hc ha]
      exact both_ok rfl

theorem log_both (ha : RdK rd g a n) (hb : RdK rd g b (n + 1)) : Both (logDiff rd n a b) (logDiffC rd n a b) := by
  by_cases hn : n = 0
  · subst hn
    ev [logDiff, logDiffC, hb.at (Nat.succ_pos _)]
    exact both_ok rfl
  · have hp : 0 < n := Nat.pos_of_ne_zero hn
    have hb' : RdK rd g b n := fun o ho => hb o (by omega)
    by_cases h1 : 1 < n
    · ev [logDiff, logDiffC, if_neg hn, if_pos h1, jacc_ok hp hb' ha, jsum_okK hp h1 hb' ha, hb.at (Nat.lt_succ_self n),
        hb'.at hp]
      exact both_ok rfl
    · ev [logDiff, logDiffC, if_neg hn, if_neg h1, jacc_ok hp hb' ha, hb.at (Nat.lt_succ_self n), hb'.at hp]
      rw [vsum_empty (by omega), V.sub_zero]
      exact both_ok rfl

theorem sigmoid_both (ha : RdK rd g a n) (hc : RdK rd g c n) (hb : RdK rd g b (n + 1)) :
    Both (sigmoidDiff rd n a c b) (sigmoidDiffC rd n a c b) := by
  by_cases hn : n = 0
  · subst hn
    ev [sigmoidDiff, sigmoidDiffC, hb.at (Nat.succ_pos _)]
    exact both_ok rfl
  · have hbody : ∀ j, 1 ≤ j → j < n + 1 → (do
        let anj ← rd a (n - j)
        let bj ← rd b j
        let cnj ← rd c (n - j)
        pure ((anj - cnj) * bj * V.nat j)) = Res.ok ((g a (n - j) - g c (n - j)) * g b j * V.nat j) := by
      intro j h1 h2
      ev [ha.at (by omega : n - j < n), hc.at (by omega : n - j < n), hb.at h2]
    rw [sigmoidDiff, sigmoidDiffC, if_neg hn, if_neg hn, sumR_okK (by omega) hbody, accR_ok hbody]
    exact both_ok rfl

theorem atan2_both {y x : TArg K} (ha : RdK rd g a n) (hd : RdK rd g d n)
    (hy : ∀ i, y = .u i → RdK rd g i (n + 1)) (hx : ∀ i, x = .u i → RdK rd g i (n + 1)) :
    Both (atan2Diff rd n a d y x) (atan2DiffC rd n a d y x) := by
  have key : ∀ (hn : n ≠ 0) (z : V K), addSum n z (sumR 1 n fun j => do
      let dnj ← rd d (n - j)
      let aj ← rd a j
      pure (-V.nat j * (dnj * aj))) = .ok (z - vsum 1 n fun j => V.nat j * (g d (n - j) * g a j)) := by
    intro hn z
    rw [addSum_okK hn (t := fun j => -(V.nat j * (g d (n - j) * g a j))) fun j h1 h2 => ?_, vsum_neg, V.sub_eq]
    ev [ha.at h2, hd.at (by omega : n - j < n), V.neg_mul]
  cases y with
  | cst m y =>
    cases x with
    | cst m' x => exact cst_both
    | u x =>
      have hx := hx x rfl
      by_cases hn : n = 0
      · subst hn
        ev [atan2Diff, atan2DiffC, hx.at (Nat.succ_pos _)]
        exact both_ok rfl
      · have hp : 0 < n := Nat.pos_of_ne_zero hn
        ev [atan2Diff, atan2DiffC, if_neg hn, jacc_ok hp hd ha, hx.at (Nat.lt_succ_self n), hd.at hp]
        have := key hn
        simp only [Res.bind_eq, Res.pure_eq] at this
        rw [this]
        refine both_ok ?_
        rw [V.mul_assoc]
  | u y =>
    have hy := hy y rfl
    cases x with
    | cst m' x =>
      by_cases hn : n = 0
      · subst hn
        ev [atan2Diff, atan2DiffC, hy.at (Nat.succ_pos _)]
        exact both_ok rfl
      · have hp : 0 < n := Nat.pos_of_ne_zero hn
        ev [atan2Diff, atan2DiffC, if_neg hn, jacc_ok hp hd ha, hy.at (Nat.lt_succ_self n), hd.at hp]
        have := key hn
        simp only [Res.bind_eq, Res.pure_eq] at this
        rw [this]
        refine both_ok ?_
        rw [V.mul_assoc]
    | u x =>
      have hx := hx x rfl
      by_cases hn : n = 0
      · subst hn
        ev [atan2Diff, atan2DiffC, hy.at (Nat.succ_pos _), hx.at (Nat.succ_pos _)]
        exact both_ok rfl
      · have hp : 0 < n := Nat.pos_of_ne_zero hn
        have hbody : ∀ j, 1 ≤ j → j < n → (do
            let cnj ← rd x (n - j)
            let bj ← rd y j
            let bnj ← rd y (n - j)
            let cj ← rd x j
            let dnj ← rd d (n - j)
            let aj ← rd a j
            pure (V.nat j * (cnj * bj - bnj * cj - dnj * aj))) = Res.ok (V.nat j *
              (g x (n - j) * g y j - g y (n - j) * g x j - g d (n - j) * g a j)) := by
          intro j h1 h2
          ev [ha.at h2, hd.at (by omega : n - j < n), hx.at (by omega : n - j < n + 1), hy.at (by omega : n - j < n + 1),
            hx.at (by omega : j < n + 1), hy.at (by omega : j < n + 1)]
        simp only [Res.bind_eq, Res.pure_eq] at hbody
        ev [atan2Diff, atan2DiffC, if_neg hn, hx.at (Nat.lt_succ_self n), hx.at (Nat.succ_pos n), hy.at (Nat.lt_succ_self n), hy.at (Nat.succ_pos n), hd.at hp,
          addSum_okK hn hbody, accR_ok hbody]
        exact both_ok rfl

theorem kepE_both {x M : TArg K} (ha : RdK rd g a n) (hc : RdK rd g c n) (hd : RdK rd g d n)
    (hx : ∀ i, x = .u i → RdK rd g i (n + 1)) (hM : ∀ i, M = .u i → RdK rd g i (n + 1)) :
    Both (kepEDiff rd n a c d x M) (kepEDiffC rd n a c d x M) := by
  have key : ∀ (hn : n ≠ 0) {e : Nat} (he : RdK rd g e (n + 1)), ∃ S, kepEAcc rd n a c d e = .ok S ∧ ∀ z, addSum n z (sumR 1 n fun j => do
      let cnj ← rd c (n - j)
      let aj ← rd a j
      let dnj ← rd d (n - j)
      let ej ← rd e j
      pure (V.nat j * (cnj * aj + dnj * ej))) = .ok (z + S) := by
    intro hn e he
    refine ⟨vsum 1 n fun j => V.nat j * (g d (n - j) * g e j + g c (n - j) * g a j), ?_, fun z => ?_⟩
    · rw [kepEAcc]
      refine accR_ok fun j h1 h2 => ?_
      ev [ha.at h2, hd.at (by omega : n - j < n), hc.at (by omega : n - j < n), he.at (by omega : j < n + 1)]
    · refine addSum_okK hn fun j h1 h2 => ?_
      ev [ha.at h2, hd.at (by omega : n - j < n), hc.at (by omega : n - j < n), he.at (by omega : j < n + 1)]
      rw [add_comm]
  cases x with
  | cst m x =>
    cases M with
    | cst m' M => exact cst_both
    | u M =>
      have hM := hM M rfl
      by_cases hn : n = 0
      · subst hn
        ev [kepEDiff, kepEDiffC, hM.at (Nat.succ_pos _)]
        exact both_ok rfl
      · have hp : 0 < n := Nat.pos_of_ne_zero hn
        have hbody : ∀ j, 1 ≤ j → j < n → (do
            let cnj ← rd c (n - j)
            let aj ← rd a j
            pure (V.nat j * (cnj * aj))) = Res.ok (V.nat j * (g c (n - j) * g a j)) := by
          intro j h1 h2
          ev [ha.at h2, hc.at (by omega : n - j < n)]
        simp only [Res.bind_eq, Res.pure_eq] at hbody
        ev [kepEDiff, kepEDiffC, if_neg hn, jacc_ok hp hc ha, hM.at (Nat.lt_succ_self n), hc.at hp, addSum_okK hn hbody]
        exact both_ok rfl
  | u e =>
    have he := hx e rfl
    cases M with
    | cst m' M =>
      by_cases hn : n = 0
      · subst hn
        ev [kepEDiff, kepEDiffC, he.at (Nat.succ_pos _)]
        exact both_ok rfl
      · have hp : 0 < n := Nat.pos_of_ne_zero hn
        obtain ⟨S, hS, hz⟩ := key hn he
        simp only [Res.bind_eq, Res.pure_eq] at hz
        ev [kepEDiff, kepEDiffC, if_neg hn, he.at (Nat.lt_succ_self n), hc.at hp, hd.at hp, hS, hz]
        exact both_ok (by rw [V.mul_assoc])
    | u M =>
      have hM := hM M rfl
      by_cases hn : n = 0
      · subst hn
        ev [kepEDiff, kepEDiffC, he.at (Nat.succ_pos _), hM.at (Nat.succ_pos _)]
        exact both_ok rfl
      · have hp : 0 < n := Nat.pos_of_ne_zero hn
        obtain ⟨S, hS, hz⟩ := key hn he
        simp only [Res.bind_eq, Res.pure_eq] at hz
        ev [kepEDiff, kepEDiffC, if_neg hn, he.at (Nat.lt_succ_self n), hM.at (Nat.lt_succ_self n), hc.at hp, hd.at hp, hS, hz]
        exact both_ok rfl

theorem kepFAccL_ok (hn : n ≠ 0) (ha : RdK rd g a n) (hc : RdK rd g c n) (hd : RdK rd g d n)  :
    ∃ S, kepFAccL rd n a c d  = .ok S ∧ ∀ z, addSum n z (sumR 1 n fun j => do
      let cnj ← rd c (n - j)
      let dnj ← rd d (n - j)
      let aj ← rd a j
      pure ((cnj + dnj) * (V.nat j * aj))) = .ok (z + S) := by
  refine ⟨vsum 1 n fun j => V.nat j * g a j * (g c (n - j) + g d (n - j)), ?_, fun z => ?_⟩
  · rw [kepFAccL]
    refine accR_ok fun j h1 h2 => ?_
    ev [ha.at h2, hd.at (by omega : n - j < n), hc.at (by omega : n - j < n)]
  · refine addSum_okK hn fun j h1 h2 => ?_
    ev [ha.at h2, hd.at (by omega : n - j < n), hc.at (by omega : n - j < n)]
    rw [V.mul_comm (g c (n - j) + g d (n - j))]

theorem kepFAccK_ok (hn : n ≠ 0) (ha : RdK rd g a n) (hc : RdK rd g c n) (hd : RdK rd g d n) (he : RdK rd g e n) (hk : RdK rd g k (n + 1)) :
    ∃ S, kepFAccK rd n a c d e k = .ok S ∧ ∀ z, addSum n z (sumR 1 n fun j => do
      let cnj ← rd c (n - j)
      let dnj ← rd d (n - j)
      let enj ← rd e (n - j)
      let aj ← rd a j
      let kj ← rd k j
      pure (V.nat j * (aj * (cnj + dnj) + kj * enj))) = .ok (z + S) := by
  refine ⟨vsum 1 n fun j => V.nat j * (g a j * (g c (n - j) + g d (n - j)) + g k j * g e (n - j)), ?_, fun z => ?_⟩
  · rw [kepFAccK]
    refine accR_ok fun j h1 h2 => ?_
    ev [ha.at h2, hd.at (by omega : n - j < n), hc.at (by omega : n - j < n), he.at (by omega : n - j < n), hk.at (by omega : j < n + 1)]
  · refine addSum_okK hn fun j h1 h2 => ?_
    ev [ha.at h2, hd.at (by omega : n - j < n), hc.at (by omega : n - j < n), he.at (by omega : n - j < n), hk.at (by omega : j < n + 1)]

theorem kepFAccH_ok (hn : n ≠ 0) (ha : RdK rd g a n) (hc : RdK rd g c n) (hd : RdK rd g d n) (hf : RdK rd g f n) (hh : RdK rd g h (n + 1)) :
    ∃ S, kepFAccH rd n a c d f h = .ok S ∧ ∀ z, addSum n z (sumR 1 n fun j => do
      let cnj ← rd c (n - j)
      let dnj ← rd d (n - j)
      let fnj ← rd f (n - j)
      let aj ← rd a j
      let hj ← rd h j
      pure (V.nat j * (aj * (cnj + dnj) - hj * fnj))) = .ok (z + S) := by
  refine ⟨vsum 1 n fun j => V.nat j * (g a j * (g c (n - j) + g d (n - j)) - g h j * g f (n - j)), ?_, fun z => ?_⟩
  · rw [kepFAccH]
    refine accR_ok fun j h1 h2 => ?_
    ev [ha.at h2, hd.at (by omega : n - j < n), hc.at (by omega : n - j < n), hf.at (by omega : n - j < n), hh.at (by omega : j < n + 1)]
  · refine addSum_okK hn fun j h1 h2 => ?_
    ev [ha.at h2, hd.at (by omega : n - j < n), hc.at (by omega : n - j < n), hf.at (by omega : n - j < n), hh.at (by omega : j < n + 1)]

theorem kepFAccHK_ok (hn : n ≠ 0) (ha : RdK rd g a n) (hc : RdK rd g c n) (hd : RdK rd g d n) (he : RdK rd g e n) (hf : RdK rd g f n) (hh : RdK rd g h (n + 1)) (hk : RdK rd g k (n + 1)) :
    ∃ S, kepFAccHK rd n a c d e f h k = .ok S ∧ ∀ z, addSum n z (sumR 1 n fun j => do
      let cnj ← rd c (n - j)
      let dnj ← rd d (n - j)
      let enj ← rd e (n - j)
      let fnj ← rd f (n - j)
      let aj ← rd a j
      let hj ← rd h j
      let kj ← rd k j
      pure (V.nat j * (aj * (cnj + dnj) + (kj * enj - hj * fnj)))) = .ok (z + S) := by
  refine ⟨vsum 1 n fun j => V.nat j * (g a j * (g c (n - j) + g d (n - j)) + (g k j * g e (n - j) - g h j * g f (n - j))), ?_, fun z => ?_⟩
  · rw [kepFAccHK]
    refine accR_ok fun j h1 h2 => ?_
    ev [ha.at h2, hd.at (by omega : n - j < n), hc.at (by omega : n - j < n), he.at (by omega : n - j < n), hk.at (by omega : j < n + 1), hf.at (by omega : n - j < n), hh.at (by omega : j < n + 1)]
  · refine addSum_okK hn fun j h1 h2 => ?_
    ev [ha.at h2, hd.at (by omega : n - j < n), hc.at (by omega : n - j < n), he.at (by omega : n - j < n), hk.at (by omega : j < n + 1), hf.at (by omega : n - j < n), hh.at (by omega : j < n + 1)]

theorem kepF_both {x y z : TArg K} (ha : RdK rd g a n) (hc : RdK rd g c n) (hd : RdK rd g d n) (he : RdK rd g e n)
    (hf : RdK rd g f n) (hx : ∀ i, x = .u i → RdK rd g i (n + 1)) (hy : ∀ i, y = .u i → RdK rd g i (n + 1))
    (hz : ∀ i, z = .u i → RdK rd g i (n + 1)) :
    Both (kepFDiff rd n a c d e f x y z) (kepFDiffC rd n a c d e f x y z) := by
  cases x with
  | cst m h =>
    cases y with
    | cst m k =>
      cases z with
      | cst m l =>
        exact cst_both
      | u l =>
        have hl := hz l rfl
        by_cases hn : n = 0
        · subst hn
          ev [kepFDiff, kepFDiffC, hl.at (Nat.succ_pos _)]
          exact both_ok rfl
        · have hp : 0 < n := Nat.pos_of_ne_zero hn
          obtain ⟨S, hS, hs⟩ := kepFAccL_ok hn ha hc hd
          simp only [Res.bind_eq, Res.pure_eq] at hs
          ev [kepFDiff, kepFDiffC, if_neg hn, hl.at (Nat.lt_succ_self n), hc.at hp, hd.at hp, he.at hp, hf.at hp, hS, hs]
          exact both_ok rfl
    | u k =>
      have hk := hy k rfl
      cases z with
      | cst m l =>
        by_cases hn : n = 0
        · subst hn
          ev [kepFDiff, kepFDiffC, hk.at (Nat.succ_pos _)]
          exact both_ok rfl
        · have hp : 0 < n := Nat.pos_of_ne_zero hn
          obtain ⟨S, hS, hs⟩ := kepFAccK_ok hn ha hc hd he hk
          simp only [Res.bind_eq, Res.pure_eq] at hs
          ev [kepFDiff, kepFDiffC, if_neg hn, hk.at (Nat.lt_succ_self n), hc.at hp, hd.at hp, he.at hp, hf.at hp, hS, hs]
          exact both_ok rfl
      | u l =>
        have hl := hz l rfl
        by_cases hn : n = 0
        · subst hn
          ev [kepFDiff, kepFDiffC, hk.at (Nat.succ_pos _), hl.at (Nat.succ_pos _)]
          exact both_ok rfl
        · have hp : 0 < n := Nat.pos_of_ne_zero hn
          obtain ⟨S, hS, hs⟩ := kepFAccK_ok hn ha hc hd he hk
          simp only [Res.bind_eq, Res.pure_eq] at hs
          ev [kepFDiff, kepFDiffC, if_neg hn, hk.at (Nat.lt_succ_self n), hl.at (Nat.lt_succ_self n), hc.at hp, hd.at hp, he.at hp, hf.at hp, hS, hs]
          exact both_ok rfl
  | u h =>
    have hh := hx h rfl
    cases y with
    | cst m k =>
      cases z with
      | cst m l =>
        by_cases hn : n = 0
        · subst hn
          ev [kepFDiff, kepFDiffC, hh.at (Nat.succ_pos _)]
          exact both_ok rfl
        · have hp : 0 < n := Nat.pos_of_ne_zero hn
          obtain ⟨S, hS, hs⟩ := kepFAccH_ok hn ha hc hd hf hh
          simp only [Res.bind_eq, Res.pure_eq] at hs
          ev [kepFDiff, kepFDiffC, if_neg hn, hh.at (Nat.lt_succ_self n), hc.at hp, hd.at hp, he.at hp, hf.at hp, hS, hs]
          exact both_ok rfl
      | u l =>
        have hl := hz l rfl
        by_cases hn : n = 0
        · subst hn
          ev [kepFDiff, kepFDiffC, hh.at (Nat.succ_pos _), hl.at (Nat.succ_pos _)]
          exact both_ok rfl
        · have hp : 0 < n := Nat.pos_of_ne_zero hn
          obtain ⟨S, hS, hs⟩ := kepFAccH_ok hn ha hc hd hf hh
          simp only [Res.bind_eq, Res.pure_eq] at hs
          ev [kepFDiff, kepFDiffC, if_neg hn, hh.at (Nat.lt_succ_self n), hl.at (Nat.lt_succ_self n), hc.at hp, hd.at hp, he.at hp, hf.at hp, hS, hs]
          exact both_ok rfl
    | u k =>
      have hk := hy k rfl
      cases z with
      | cst m l =>
        by_cases hn : n = 0
        · subst hn
          ev [kepFDiff, kepFDiffC, hh.at (Nat.succ_pos _), hk.at (Nat.succ_pos _)]
          exact both_ok rfl
        · have hp : 0 < n := Nat.pos_of_ne_zero hn
          obtain ⟨S, hS, hs⟩ := kepFAccHK_ok hn ha hc hd he hf hh hk
          simp only [Res.bind_eq, Res.pure_eq] at hs
          ev [kepFDiff, kepFDiffC, if_neg hn, hh.at (Nat.lt_succ_self n), hk.at (Nat.lt_succ_self n), hc.at hp, hd.at hp, he.at hp, hf.at hp, hS, hs]
          exact both_ok rfl
      | u l =>
        have hl := hz l rfl
        by_cases hn : n = 0
        · subst hn
          ev [kepFDiff, kepFDiffC, hh.at (Nat.succ_pos _), hk.at (Nat.succ_pos _), hl.at (Nat.succ_pos _)]
          exact both_ok rfl
        · have hp : 0 < n := Nat.pos_of_ne_zero hn
          obtain ⟨S, hS, hs⟩ := kepFAccHK_ok hn ha hc hd he hf hh hk
          simp only [Res.bind_eq, Res.pure_eq] at hs
          ev [kepFDiff, kepFDiffC, if_neg hn, hh.at (Nat.lt_succ_self n), hk.at (Nat.lt_succ_self n), hl.at (Nat.lt_succ_self n), hc.at hp, hd.at hp, he.at hp, hf.at hp, hS, hs]
          exact both_ok rfl

end Heyoka.Taylor
