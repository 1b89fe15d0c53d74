import Verif.Taylor.Both3

/-!
# The recurrences in the two modes: all the functions
-/

set_option linter.unusedSectionVars false
set_option linter.unusedSimpArgs false
set_option linter.unusedVariables false

namespace Heyoka.Taylor

open Heyoka.Sym

variable {K : Type} [Field K] [LinearOrder K]

local macro "ev" "[" ls:Lean.Parser.Tactic.simpLemma,* "]" : tactic =>
  `(tactic| simp only [Res.bind_eq, Res.bind_ok, Res.pure_eq, if_true, $ls,*])

/-- What the recurrences of powers need about the evaluation of powers: the strategies compute the power, the
power with exponent 2 is the square, the value does not depend on what was recorded when the function object was
constructed. -/
structure PowSound (K : Type) [Field K] [LinearOrder K] [FloorRing K] [Interp K] [CodeInterp K] : Prop where
  code : ∀ (algo : PowAlgo) (m : Num K) (x y : K), m.toK? = some y →
    CodeInterp.code (.pow (powAlgo (.num m))) [x, y] = Interp.app (.pow algo) [x, y]
  sq : ∀ (algo : PowAlgo) (x : K), Interp.app (.pow algo) [x, 2] = some (x * x)
  half : ∀ (algo algo' : PowAlgo) (x : K), Interp.app (.pow algo) [x, 1 / 2] = Interp.app (.pow algo') [x, 1 / 2]

section
variable [IsStrictOrderedRing K] [FloorRing K]

theorem powAlgo_sq_iff (m : Num K) : powAlgo (.num m : Expr K) = .posInt 2 ↔ m.toK? = some 2 := by
  simp only [powAlgo, exIsIntegral, exIsOddIntegralHalf]
  cases hm : m.toK? with
  | none => simp
  | some x =>
    simp only [Option.some.injEq]
    by_cases h1 : x = (⌊x⌋ : K)
    · rw [if_pos h1]
      simp only
      rw [if_pos h1]
      generalize hk : ⌊x⌋ = q at h1
      subst h1
      constructor
      · intro h
        by_cases h2 : 0 ≤ q ∧ q ≤ 16
        · simp only [h2, and_self, if_true, PowAlgo.posInt.injEq] at h
          have : q = 2 := by omega
          subst this
          norm_num
        · simp only [h2, if_false] at h
          by_cases h3 : q < 0 ∧ -q ≤ 16
          · simp only [h3, and_self, if_true] at h
            cases h
          · simp only [h3, if_false] at h
            cases h
      · intro h
        have : q = 2 := by exact_mod_cast h
        subst this
        rfl
    · rw [if_neg h1]
      simp only
      rw [if_neg h1]
      constructor
      · intro h
        split at h
        · split_ifs at h
        · cases h
      · intro h
        subst h
        exact absurd (by rw [show (2 : K) = ((2 : ℤ) : K) by norm_num, Int.floor_intCast]) h1

theorem powAlgo_half_iff (m : Num K) : powAlgo (.num m : Expr K) = .posHalf 1 ↔ m.toK? = some (1 / 2) := by
  simp only [powAlgo, exIsIntegral, exIsOddIntegralHalf]
  cases hm : m.toK? with
  | none => simp
  | some x =>
    simp only [Option.some.injEq]
    have hfl : ⌊(1 / 2 : K)⌋ = 0 := by
      rw [Int.floor_eq_iff]
      norm_num
    by_cases h1 : x = (⌊x⌋ : K)
    · rw [if_pos h1]
      simp only
      rw [if_pos h1]
      constructor
      · intro h
        exfalso
        by_cases h2 : 0 ≤ ⌊x⌋ ∧ ⌊x⌋ ≤ 16
        · simp only [h2, and_self, if_true] at h
          cases h
        · simp only [h2, if_false] at h
          by_cases h3 : ⌊x⌋ < 0 ∧ -⌊x⌋ ≤ 16
          · simp only [h3, and_self, if_true] at h
            cases h
          · simp only [h3, if_false] at h
            cases h
      · intro h
        subst h
        rw [hfl] at h1
        norm_num at h1
    · rw [if_neg h1]
      simp only
      rw [if_neg h1]
      by_cases h2 : 2 * x = (⌊2 * x⌋ : K)
      · rw [if_pos h2]
        simp only
        generalize hk : ⌊2 * x⌋ = q at h2
        constructor
        · intro h
          by_cases h3 : 0 ≤ q ∧ q ≤ 16
          · rw [if_pos h3] at h
            injection h with h
            have : q = 1 := by omega
            subst this
            rw [eq_div_iff (by norm_num), mul_comm, h2]
            norm_num
          · rw [if_neg h3] at h
            split_ifs at h
        · intro h
          subst h
          have : q = 1 := by
            have : (q : K) = 1 := by rw [← h2]; norm_num
            exact_mod_cast this
          subst this
          rfl
      · rw [if_neg h2]
        constructor
        · intro h; cases h
        · intro h
          subst h
          refine absurd ?_ h2
          rw [show (2 : K) * (1 / 2) = ((1 : ℤ) : K) by norm_num, Int.floor_intCast]

open Classical in
theorem cfun_pow {algo : PowAlgo} {x : Expr K} {m : Num K} : cfun (.pow algo) [x, .num m] =
    if (∃ s, x = .var s) ∧ m.toK? = some (1 / 2) then .sqrt
    else if (∃ s, x = .var s) ∧ m.toK? = some 2 then .square else .pow (powAlgo (.num m)) := by
  simp only [← powAlgo_half_iff, ← powAlgo_sq_iff]
  cases x with
  | var s =>
    simp only [cfun, Expr.var.injEq, exists_eq', true_and]
    by_cases h1 : powAlgo (.num m : Expr K) = .posHalf 1
    · rw [if_pos h1, h1]
      rfl
    · rw [if_neg h1]
      by_cases h2 : powAlgo (.num m : Expr K) = .posInt 2
      · rw [if_pos h2, h2]
        rfl
      · rw [if_neg h2]
        split
        · rename_i h; exact absurd h h1
        · rename_i h; exact absurd h h2
        · rfl
  | _ => simp [cfun]

end

variable [IsStrictOrderedRing K] [FloorRing K] [Interp K] [CodeInterp K] [TConst K]
variable {rd : Nat → Nat → Res (V K)} {g : Nat → Nat → V K} {n idx : Nat} {par : Nat → K} {time : K} {L : Fn K → Prop}

theorem app_two (f : Fn K) (x y : V K) : app f [x, y] = V.ofOption (x.toOption.bind fun a => y.toOption.bind fun b =>
    Interp.app f [a, b]) := by
  rw [app]
  cases x <;> cases y <;> rfl

theorem powV_two (a : PowAlgo) (x y : V K) : powV a x y = V.ofOption (x.toOption.bind fun a' => y.toOption.bind fun b =>
    CodeInterp.code (.pow a) [a', b]) := by
  rw [powV]
  cases x <;> cases y <;> rfl

theorem powV_eq (hP : PowSound K) (algo : PowAlgo) (m : Num K) (x : V K) :
    powV (powAlgo (.num m)) x (V.ofOption m.toK?) = app (.pow algo) [x, V.ofOption m.toK?] := by
  rw [powV_two, app_two]
  congr 1
  cases x.toOption with
  | none => rfl
  | some a =>
    cases hm : m.toK? with
    | none => rfl
    | some y => exact hP.code algo m a y hm

theorem app_sq (hP : PowSound K) (algo : PowAlgo) (x : V K) : app (.pow algo) [x, V.fin 2] = x * x := by
  rw [app_two]
  induction x using V.ind with
  | hn => rfl
  | hf a => exact congrArg V.ofOption (hP.sq algo a)

theorem app_sqrt (hP : PowSound K) (algo : PowAlgo) (x : V K) : app (.pow algo) [x, V.fin (1 / 2)] = sqrtV x := by
  rw [sqrtV, app_two, app_two]
  induction x using V.ind with
  | hn => rfl
  | hf a => exact congrArg V.ofOption (hP.half algo _ a)

theorem V.ofOption_eq_fin {x : Option K} {y : K} : V.ofOption x = V.fin y ↔ x = some y := Iff.rfl

/-- The kinds of an argument. -/
theorem targ_num {m : Num K} {t : TArg K} (h : targ par (.num m) = .ok t) : t = .cst true (V.ofOption m.toK?) := by
  injection h with h
  exact h.symm

theorem targ_cases {e : Expr K} {t : TArg K} (h : targ par e = .ok t) :
    (∃ s i, e = .var s ∧ t = .u i) ∨ (∃ m, e = .num m ∧ t = .cst true (V.ofOption m.toK?)) ∨
      ∃ k, e = .par k ∧ t = .cst false (V.fin (par k)) := by
  cases e with
  | num m => exact .inr (.inl ⟨m, rfl, targ_num h⟩)
  | par k =>
    injection h with h
    exact .inr (.inr ⟨k, rfl, h.symm⟩)
  | var s =>
    rw [targ] at h
    cases hs : unameToIndex s with
    | ok i =>
      rw [hs] at h
      injection h with h
      exact .inl ⟨s, i, rfl, h.symm⟩
    | throw => rw [hs] at h; cases h
    | ub => rw [hs] at h; cases h
  | fn f l => cases h

theorem pow_both (hP : PowSound K) {algo : PowAlgo} {x : Expr K} {m : Num K} {t : TArg K} (ht : targ par x = .ok t)
    (ha : RdK rd g idx n) (hx : ARd rd g n t) :
    Both (powDiff algo rd n idx t (.cst true (V.ofOption m.toK?)))
      (taylorDiffC time rd n idx [] (cfun (.pow algo) [x, .num m]) [t, .cst true (V.ofOption m.toK?)]) := by
  rw [cfun_pow]
  rcases targ_cases ht with ⟨s, i, rfl, rfl⟩ | ⟨m', rfl, rfl⟩ | ⟨k, rfl, rfl⟩
  · have hb := hx i rfl
    by_cases h1 : m.toK? = some (1 / 2)
    · rw [if_pos ⟨⟨s, rfl⟩, h1⟩, h1]
      simp only [powDiff, taylorDiffC]
      by_cases hn : n = 0
      · subst hn
        ev [sqrtDiffC, hb.at (Nat.succ_pos _)]
        exact both_ok (app_sqrt hP _ _)
      · rw [if_neg hn, if_pos ⟨trivial, rfl⟩]
        exact sqrt_both hn ha hb
    · rw [if_neg (fun h => h1 h.2)]
      have h1' : ¬(True ∧ V.ofOption m.toK? = V.fin (1 / 2)) := fun h => h1 h.2
      by_cases h2 : m.toK? = some 2
      · rw [if_pos ⟨⟨s, rfl⟩, h2⟩]
        simp only [powDiff, taylorDiffC]
        by_cases hn : n = 0
        · subst hn
          ev [squareDiffC, hb.at (Nat.succ_pos _), h2]
          exact both_ok (app_sq hP _ _)
        · rw [if_neg hn, if_neg h1', if_pos ⟨trivial, h2⟩]
          exact square_both hn hb
      · rw [if_neg (fun h => h2 h.2)]
        have h2' : ¬(True ∧ V.ofOption m.toK? = V.fin 2) := fun h => h2 h.2
        simp only [powDiff, taylorDiffC, powDiffC]
        by_cases hn : n = 0
        · subst hn
          ev [hb.at (Nat.succ_pos _)]
          exact both_ok (powV_eq hP algo m _).symm
        · rw [if_neg hn, if_neg hn, if_neg h1', if_neg h2', powGenDiff]
          have hbody : ∀ j, 0 ≤ j → j < n → (do
              let x ← rd i (n - j)
              let y ← rd idx j
              pure ((V.nat n * V.ofOption m.toK? - V.nat j * (V.ofOption m.toK? + 1)) * (x * y))) =
              Res.ok ((V.nat n * V.ofOption m.toK? - V.nat j * (V.ofOption m.toK? + 1)) * (g i (n - j) * g idx j)) := by
            intro j _ h2
            ev [ha.at h2, hb.at (by omega : n - j < n + 1)]
          rw [sumR_okK (by omega) hbody, accR_ok hbody]
          ev [hb.at (Nat.succ_pos _)]
          exact both_ok rfl
  · rw [if_neg (by simp), if_neg (by simp)]
    simp only [powDiff, taylorDiffC, powDiffC, cstDiff, powV_eq hP algo m]
    exact both_ok rfl
  · rw [if_neg (by simp), if_neg (by simp)]
    simp only [powDiff, taylorDiffC, powDiffC, cstDiff, powV_eq hP algo m]
    exact both_ok rfl

theorem targs_cons {e : Expr K} {es : List (Expr K)} {as : List (TArg K)} (h : targs par (e :: es) = .ok as) :
    ∃ t ts, as = t :: ts ∧ targ par e = .ok t ∧ targs par es = .ok ts := by
  rw [targs] at h
  cases h1 : targ par e with
  | throw => rw [h1] at h; cases h
  | ub => rw [h1] at h; cases h
  | ok t =>
    rw [h1, Res.bind_eq, Res.bind_ok] at h
    cases h2 : targs par es with
    | throw => rw [h2] at h; cases h
    | ub => rw [h2] at h; cases h
    | ok ts =>
      rw [h2] at h
      injection h with h
      exact ⟨t, ts, h.symm, rfl, rfl⟩

theorem targs_length {es : List (Expr K)} : ∀ {as : List (TArg K)}, targs par es = .ok as → as.length = es.length := by
  induction es with
  | nil =>
    intro as h
    injection h with h
    subst h
    rfl
  | cons e es ih =>
    intro as h
    obtain ⟨t, ts, rfl, -, h2⟩ := targs_cons h
    simp [ih h2]

theorem list_one {α : Type} {l : List α} (h : l.length = 1) : ∃ x, l = [x] := List.length_eq_one_iff.1 h
theorem list_two {α : Type} {l : List α} (h : l.length = 2) : ∃ x y, l = [x, y] := List.length_eq_two.1 h
theorem list_three {α : Type} {l : List α} (h : l.length = 3) : ∃ x y z, l = [x, y, z] := List.length_eq_three.1 h
theorem list_four {α : Type} {l : List α} (h : l.length = 4) : ∃ x y z w, l = [x, y, z, w] := by
  match l, h with
  | [x, y, z, w], _ => exact ⟨x, y, z, w, rfl⟩

theorem isNegOne_iff (m : Num K) : m.isNegOne = true ↔ V.ofOption m.toK? = -1 := by
  rw [Num.isNegOne, FVal.isNegOne_iff]
  rfl

set_option maxHeartbeats 2000000 in
/-- If the lower orders can be read, the recurrence of a function in the shape produced by the decomposition
succeeds, in both modes and with the same result. -/
theorem taylorDiff_both (hP : PowSound K) {fn : Fn K} {es : List (Expr K)} {as : List (TArg K)} {deps : List Nat}
    (hsh : TShape L fn es) (has : targs par es = .ok as) (hd : deps.length = depCount fn) (hself : RdK rd g idx n)
    (hdep : ∀ d ∈ deps, RdK rd g d n) (harg : ∀ i, TArg.u i ∈ as → RdK rd g i (n + 1)) :
    Both (taylorDiff time rd n idx deps fn as) (taylorDiffC time rd n idx deps (cfun fn es) as) := by
  have hlen := targs_length has
  have hA : ∀ x ∈ as, ARd rd g n x := fun x hx i h => harg i (h ▸ hx)
  have hne : es ≠ [] → as ≠ [] := by
    rintro h rfl
    exact h (List.length_eq_zero_iff.1 hlen.symm)
  have h1 : es.length = 1 → ∃ x, as = [x] := fun h => list_one (hlen.trans h)
  have h2 : es.length = 2 → ∃ x y, as = [x, y] := fun h => list_two (hlen.trans h)
  have h3 : es.length = 3 → ∃ x y z, as = [x, y, z] := fun h => list_three (hlen.trans h)
  cases fn
  case pow algo =>
    obtain rfl := List.length_eq_zero_iff.1 hd
    obtain ⟨x, m, rfl⟩ := hsh
    obtain ⟨t, ts, rfl, h4, h5⟩ := targs_cons has
    obtain ⟨t', ts', rfl, h6, h7⟩ := targs_cons h5
    injection h7 with h7
    subst h7
    obtain rfl := targ_num h6
    simp only [taylorDiff, ne_eq, not_true, if_false]
    exact pow_both hP h4 hself (hA t (by simp))
  case prod b =>
    obtain rfl := List.length_eq_zero_iff.1 hd
    obtain ⟨x, y, rfl⟩ := h2 hsh
    obtain ⟨e, e', rfl⟩ := list_two hsh
    obtain ⟨t, ts, h4, h5, -⟩ := targs_cons has
    injection h4 with h4 h6
    subst h4
    simp only [taylorDiff, ne_eq, not_true, if_false]
    rcases targ_cases h5 with ⟨s, i, rfl, rfl⟩ | ⟨m', rfl, rfl⟩ | ⟨k, rfl, rfl⟩
    · simp only [cfun, taylorDiffC]
      exact prod_both (by simp) (hA _ (by simp)) (hA _ (by simp))
    · by_cases hm : m'.isNegOne = true
      · simp only [cfun, hm, if_true, taylorDiffC]
        rw [(isNegOne_iff m').1 hm]
        exact neg_both (hA _ (by simp))
      · simp only [cfun, hm, if_false, taylorDiffC]
        refine prod_both (fun c hc => ?_) (hA _ (by simp)) (hA _ (by simp))
        injection hc with _ hc
        subst hc
        exact fun h => hm ((isNegOne_iff m').2 h)
    · simp only [cfun, taylorDiffC]
      exact prod_both (by simp) (hA _ (by simp)) (hA _ (by simp))
  case sum =>
    obtain rfl := List.length_eq_zero_iff.1 hd
    simp only [taylorDiff, cfun, taylorDiffC, hne hsh, ne_eq, not_true, if_false]
    exact sum_both (hne hsh) hA
  case sumSq =>
    obtain rfl := List.length_eq_zero_iff.1 hd
    simp only [taylorDiff, cfun, taylorDiffC, hne hsh, ne_eq, not_true, if_false]
    exact sumSq_both (hne hsh) hA
  case sub =>
    obtain rfl := List.length_eq_zero_iff.1 hd
    obtain ⟨x, y, rfl⟩ := h2 hsh
    simp only [taylorDiff, cfun, taylorDiffC, ne_eq, not_true, if_false]
    exact sub_both (hA _ (by simp)) (hA _ (by simp))
  case div =>
    obtain rfl := List.length_eq_zero_iff.1 hd
    obtain ⟨x, y, rfl⟩ := h2 hsh
    simp only [taylorDiff, cfun, taylorDiffC, ne_eq, not_true, if_false]
    exact div_both hself (hA _ (by simp)) (hA _ (by simp))
  case relu s =>
    obtain rfl := List.length_eq_zero_iff.1 hd
    obtain ⟨x, rfl⟩ := h1 hsh.1
    simp only [taylorDiff, cfun, taylorDiffC, ne_eq, not_true, if_false]
    exact relu_both (hA _ (by simp))
  case relup s =>
    obtain rfl := List.length_eq_zero_iff.1 hd
    obtain ⟨x, rfl⟩ := h1 hsh.1
    simp only [taylorDiff, cfun, taylorDiffC, ne_eq, not_true, if_false]
    exact relup_both (hA _ (by simp))
  case select =>
    obtain rfl := List.length_eq_zero_iff.1 hd
    obtain ⟨x, y, z, rfl⟩ := h3 hsh
    simp only [taylorDiff, cfun, taylorDiffC, ne_eq, not_true, if_false]
    exact select_both (hA _ (by simp)) (hA _ (by simp)) (hA _ (by simp))
  case rel op =>
    obtain rfl := List.length_eq_zero_iff.1 hd
    obtain ⟨x, y, rfl⟩ := h2 hsh
    simp only [taylorDiff, cfun, taylorDiffC, ne_eq, not_true, if_false]
    exact bool_both hA
  case land =>
    obtain rfl := List.length_eq_zero_iff.1 hd
    simp only [taylorDiff, cfun, taylorDiffC, hne hsh, ne_eq, not_true, if_false, or_self]
    exact bool_both hA
  case lor =>
    obtain rfl := List.length_eq_zero_iff.1 hd
    simp only [taylorDiff, cfun, taylorDiffC, hne hsh, ne_eq, not_true, if_false, or_self]
    exact bool_both hA
  case time => simp only [taylorDiff, cfun, taylorDiffC]; exact both_ok rfl
  case const c => simp only [taylorDiff, cfun, taylorDiffC]; exact both_ok rfl
  case numId =>
    obtain rfl := List.length_eq_zero_iff.1 hd
    obtain ⟨m, rfl⟩ := hsh
    obtain ⟨t, ts, rfl, h4, h5⟩ := targs_cons has
    injection h5 with h5
    subst h5
    obtain rfl := targ_num h4
    simp only [taylorDiff, cfun, taylorDiffC, ne_eq, not_true, if_false]
    exact both_ok rfl
  case atan2 =>
    obtain ⟨d, rfl⟩ := list_one hd
    obtain ⟨x, y, rfl⟩ := h2 hsh
    simp only [taylorDiff, cfun, taylorDiffC]
    exact atan2_both hself (hdep _ (by simp)) (hA _ (by simp)) (hA _ (by simp))
  case kepE =>
    obtain ⟨c, d, rfl⟩ := list_two hd
    obtain ⟨x, y, rfl⟩ := h2 hsh
    simp only [taylorDiff, cfun, taylorDiffC]
    exact kepE_both hself (hdep _ (by simp)) (hdep _ (by simp)) (hA _ (by simp)) (hA _ (by simp))
  case kepF =>
    obtain ⟨c, d, e, f, rfl⟩ := list_four hd
    obtain ⟨x, y, z, rfl⟩ := h3 hsh
    simp only [taylorDiff, cfun, taylorDiffC]
    exact kepF_both hself (hdep _ (by simp)) (hdep _ (by simp)) (hdep _ (by simp)) (hdep _ (by simp)) (hA _ (by simp))
      (hA _ (by simp)) (hA _ (by simp))
  case exp =>
    obtain rfl := List.length_eq_zero_iff.1 hd
    obtain ⟨x, rfl⟩ := h1 hsh
    simp only [taylorDiff, cfun, taylorDiffC]
    exact un_both (hA _ (by simp)) fun b hb => exp_both hself hb
  case log =>
    obtain rfl := List.length_eq_zero_iff.1 hd
    obtain ⟨x, rfl⟩ := h1 hsh
    simp only [taylorDiff, cfun, taylorDiffC]
    exact un_both (hA _ (by simp)) fun b hb => log_both hself hb
  case kepDE => exact hsh.elim
  case dfun => exact hsh.elim
  case other => exact hsh.elim
  all_goals
    obtain ⟨d, rfl⟩ := list_one hd
    obtain ⟨x, rfl⟩ := h1 hsh
    simp only [taylorDiff, cfun, taylorDiffC]
    refine un1_both (hA _ (by simp)) fun b hb => ?_
    first
      | exact sin_both (hdep _ (by simp)) hb
      | exact cos_both (hdep _ (by simp)) hb
      | exact tan_both (hdep _ (by simp)) hb
      | exact tanh_both (hdep _ (by simp)) hb
      | exact erf_both (hdep _ (by simp)) hb
      | exact asin_both hself (hdep _ (by simp)) hb
      | exact acos_both hself (hdep _ (by simp)) hb
      | exact atan_both hself (hdep _ (by simp)) hb
      | exact atanh_both hself (hdep _ (by simp)) hb
      | exact sigmoid_both hself (hdep _ (by simp)) hb

end Heyoka.Taylor
