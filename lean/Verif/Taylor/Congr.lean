import Verif.Taylor.Model
import Mathlib.Tactic.Linarith

/-!
# What the recurrences read

The recurrence of order `n` reads only the orders below `n` of the variable itself and of its hidden
dependencies, and the orders up to `n` of the arguments.
-/

set_option linter.unusedSectionVars false
set_option linter.unusedSimpArgs false
set_option linter.unusedVariables false

namespace Heyoka.Taylor

open Heyoka.Sym

variable {K : Type} [Field K] [LinearOrder K] [Interp K] [TConst K]
variable {rd rd' : Nat → Nat → Res (V K)} {n a b c d e f : Nat}

theorem collect_congr {body body' : Nat → Res (V K)} {l : List Nat} (h : ∀ j ∈ l, body j = body' j) :
    collect body l = collect body' l := by
  induction l with
  | nil => rfl
  | cons j l ih => rw [collect, collect, h j (by simp), ih fun i hi => h i (by simp [hi])]

theorem sumR_congr {body body' : Nat → Res (V K)} {a b : Nat}
    (h : ∀ j, a ≤ j → j < b → body j = body' j) : sumR a b body = sumR a b body' := by
  rw [sumR, sumR, collect_congr fun j hj => ?_]
  rw [List.mem_range'_1] at hj
  exact h j hj.1 (by omega)

theorem jsum_congr {hi : Nat} (hc : ∀ o < n, rd c o = rd' c o) (hb : ∀ o < hi, rd b o = rd' b o)
    (hhi : hi ≤ n + 1) : jsum rd c b n hi = jsum rd' c b n hi := by
  rw [jsum, jsum]
  exact sumR_congr fun j h1 h2 => by rw [hc (n - j) (by omega), hb j h2]

/-- The reading of an argument. -/
def ArgEq (rd rd' : Nat → Nat → Res (V K)) (n : Nat) : TArg K → Prop
  | .cst _ _ => True
  | .u i => ∀ o < n + 1, rd i o = rd' i o

theorem argVal_congr {x : TArg K} (h : ArgEq rd rd' n x) {o : Nat} (ho : o < n + 1) :
    argVal rd o x = argVal rd' o x := by
  cases x with
  | cst m c => rfl
  | u i => exact h o ho

theorem argVals_congr {as : List (TArg K)} (h : ∀ x ∈ as, ArgEq rd rd' n x) {o : Nat} (ho : o < n + 1) :
    argVals rd o as = argVals rd' o as := by
  induction as with
  | nil => rfl
  | cons x as ih =>
    rw [argVals, argVals, argVal_congr (h x (by simp)) ho, ih fun y hy => h y (by simp [hy])]

theorem mapArgs_congr {g g' : TArg K → Res (V K)} {as : List (TArg K)} (h : ∀ x ∈ as, g x = g' x) :
    mapArgs g as = mapArgs g' as := by
  induction as with
  | nil => rfl
  | cons x as ih => rw [mapArgs, mapArgs, h x (by simp), ih fun y hy => h y (by simp [hy])]

theorem expDiff_congr (ha : ∀ o < n, rd a o = rd' a o) (hb : ∀ o < n + 1, rd b o = rd' b o) :
    expDiff rd n a b = expDiff rd' n a b := by
  unfold expDiff
  split
  · next h => subst h; rw [hb 0 (by omega)]
  · next h =>
    rw [jsum_congr ha hb le_rfl]

theorem logDiff_congr (ha : ∀ o < n, rd a o = rd' a o) (hb : ∀ o < n + 1, rd b o = rd' b o) :
    logDiff rd n a b = logDiff rd' n a b := by
  unfold logDiff
  split
  · next h => subst h; rw [hb 0 (by omega)]
  · next h =>
    rw [hb 0 (by omega), hb n (by omega), jsum_congr (fun o ho => hb o (by omega)) ha (by omega)]

theorem sinDiff_congr {g : Fn K} (hc : ∀ o < n, rd c o = rd' c o) (hb : ∀ o < n + 1, rd b o = rd' b o) :
    sinDiff g rd n c b = sinDiff g rd' n c b := by
  unfold sinDiff
  split
  · next h => subst h; rw [hb 0 (by omega)]
  · next h =>
    rw [jsum_congr hc hb le_rfl]

theorem cosDiff_congr {g : Fn K} (hc : ∀ o < n, rd c o = rd' c o) (hb : ∀ o < n + 1, rd b o = rd' b o) :
    cosDiff g rd n c b = cosDiff g rd' n c b := by
  unfold cosDiff
  split
  · next h => subst h; rw [hb 0 (by omega)]
  · next h =>
    rw [jsum_congr hc hb le_rfl]

theorem tanDiff_congr (hc : ∀ o < n, rd c o = rd' c o) (hb : ∀ o < n + 1, rd b o = rd' b o) :
    tanDiff rd n c b = tanDiff rd' n c b := by
  unfold tanDiff
  split
  · next h => subst h; rw [hb 0 (by omega)]
  · next h =>
    rw [hb n (by omega), jsum_congr hc hb le_rfl]

theorem tanhDiff_congr (hc : ∀ o < n, rd c o = rd' c o) (hb : ∀ o < n + 1, rd b o = rd' b o) :
    tanhDiff rd n c b = tanhDiff rd' n c b := by
  unfold tanhDiff
  split
  · next h => subst h; rw [hb 0 (by omega)]
  · next h =>
    rw [hb n (by omega), jsum_congr hc hb le_rfl]

theorem asinDiff_congr {g : Fn K} (ha : ∀ o < n, rd a o = rd' a o) (hc : ∀ o < n, rd c o = rd' c o) (hb : ∀ o < n + 1, rd b o = rd' b o) :
    asinDiff g rd n a c b = asinDiff g rd' n a c b := by
  unfold asinDiff
  split
  · next h => subst h; rw [hb 0 (by omega)]
  · next h =>
    rw [hc 0 (by omega), hb n (by omega), jsum_congr hc ha (by omega)]

theorem acosDiff_congr (ha : ∀ o < n, rd a o = rd' a o) (hc : ∀ o < n, rd c o = rd' c o) (hb : ∀ o < n + 1, rd b o = rd' b o) :
    acosDiff rd n a c b = acosDiff rd' n a c b := by
  unfold acosDiff
  split
  · next h => subst h; rw [hb 0 (by omega)]
  · next h =>
    rw [hc 0 (by omega), hb n (by omega), jsum_congr hc ha (by omega)]

theorem atanDiff_congr (ha : ∀ o < n, rd a o = rd' a o) (hc : ∀ o < n, rd c o = rd' c o) (hb : ∀ o < n + 1, rd b o = rd' b o) :
    atanDiff rd n a c b = atanDiff rd' n a c b := by
  unfold atanDiff
  split
  · next h => subst h; rw [hb 0 (by omega)]
  · next h =>
    rw [hc 0 (by omega), hb n (by omega), jsum_congr hc ha (by omega)]

theorem atanhDiff_congr (ha : ∀ o < n, rd a o = rd' a o) (hc : ∀ o < n, rd c o = rd' c o) (hb : ∀ o < n + 1, rd b o = rd' b o) :
    atanhDiff rd n a c b = atanhDiff rd' n a c b := by
  unfold atanhDiff
  split
  · next h => subst h; rw [hb 0 (by omega)]
  · next h =>
    rw [hc 0 (by omega), hb n (by omega), jsum_congr hc ha (by omega)]

theorem erfDiff_congr (hc : ∀ o < n, rd c o = rd' c o) (hb : ∀ o < n + 1, rd b o = rd' b o) :
    erfDiff rd n c b = erfDiff rd' n c b := by
  unfold erfDiff
  split
  · next h => subst h; rw [hb 0 (by omega)]
  · next h =>
    rw [jsum_congr hc hb le_rfl]

theorem sigmoidDiff_congr (ha : ∀ o < n, rd a o = rd' a o) (hc : ∀ o < n, rd c o = rd' c o)
    (hb : ∀ o < n + 1, rd b o = rd' b o) : sigmoidDiff rd n a c b = sigmoidDiff rd' n a c b := by
  unfold sigmoidDiff
  split
  · next h => subst h; rw [hb 0 (by omega)]
  · next h =>
    congr 1
    exact sumR_congr fun j h1 h2 => by rw [ha (n - j) (by omega), hb j h2, hc (n - j) (by omega)]

theorem bind_congr' {α β : Type} {x x' : Res α} {g g' : α → Res β} (h : x = x') (hg : ∀ v, g v = g' v) :
    x >>= g = x' >>= g' := by
  rw [h, funext hg]

theorem addSum_congr {x : V K} {s s' : Res (V K)} (h : s = s') : addSum n x s = addSum n x s' := by
  rw [h]

theorem atan2Diff_congr {xy xx : TArg K} (ha : ∀ o < n, rd a o = rd' a o) (hd : ∀ o < n, rd d o = rd' d o) 
    (hxy : ArgEq rd rd' n xy) (hxx : ArgEq rd rd' n xx) :
    atan2Diff rd n a d xy xx = atan2Diff rd' n a d xy xx := by
  cases xy with
  | cst my cy =>
    cases xx with
    | cst mx cx =>
      rfl
    | u ix =>
      rw [atan2Diff, atan2Diff]
      have hx' : ∀ o < n + 1, rd ix o = rd' ix o := hxx
      split
      · repeat' first | rfl | exact hx' _ (by omega) | refine addSum_congr ?_ | refine sumR_congr fun j h1 h2 => ?_ | refine bind_congr' ?_ fun _ => ?_
      · repeat' first | rfl | exact ha _ (by omega) | exact hd _ (by omega) | exact hx' _ (by omega) | refine addSum_congr ?_ | refine sumR_congr fun j h1 h2 => ?_ | refine bind_congr' ?_ fun _ => ?_
  | u iy =>
    cases xx with
    | cst mx cx =>
      rw [atan2Diff, atan2Diff]
      have hy' : ∀ o < n + 1, rd iy o = rd' iy o := hxy
      split
      · repeat' first | rfl | exact hy' _ (by omega) | refine addSum_congr ?_ | refine sumR_congr fun j h1 h2 => ?_ | refine bind_congr' ?_ fun _ => ?_
      · repeat' first | rfl | exact ha _ (by omega) | exact hd _ (by omega) | exact hy' _ (by omega) | refine addSum_congr ?_ | refine sumR_congr fun j h1 h2 => ?_ | refine bind_congr' ?_ fun _ => ?_
    | u ix =>
      rw [atan2Diff, atan2Diff]
      have hy' : ∀ o < n + 1, rd iy o = rd' iy o := hxy
      have hx' : ∀ o < n + 1, rd ix o = rd' ix o := hxx
      refine bind_congr' (hx' _ (by omega)) fun _ => bind_congr' (hy' _ (by omega)) fun _ => ?_
      split
      · repeat' first | rfl | exact hy' _ (by omega) | exact hx' _ (by omega) | refine addSum_congr ?_ | refine sumR_congr fun j h1 h2 => ?_ | refine bind_congr' ?_ fun _ => ?_
      · repeat' first | rfl | exact ha _ (by omega) | exact hd _ (by omega) | exact hy' _ (by omega) | exact hx' _ (by omega) | refine addSum_congr ?_ | refine sumR_congr fun j h1 h2 => ?_ | refine bind_congr' ?_ fun _ => ?_

theorem kepEDiff_congr {xe xM : TArg K} (ha : ∀ o < n, rd a o = rd' a o) (hc : ∀ o < n, rd c o = rd' c o) (hd : ∀ o < n, rd d o = rd' d o) 
    (hxe : ArgEq rd rd' n xe) (hxM : ArgEq rd rd' n xM) :
    kepEDiff rd n a c d xe xM = kepEDiff rd' n a c d xe xM := by
  cases xe with
  | cst me ce =>
    cases xM with
    | cst mM cM =>
      rfl
    | u iM =>
      rw [kepEDiff, kepEDiff]
      have hM' : ∀ o < n + 1, rd iM o = rd' iM o := hxM
      split
      · repeat' first | rfl | exact hM' _ (by omega) | refine addSum_congr ?_ | refine sumR_congr fun j h1 h2 => ?_ | refine bind_congr' ?_ fun _ => ?_
      · repeat' first | rfl | exact ha _ (by omega) | exact hc _ (by omega) | exact hd _ (by omega) | exact hM' _ (by omega) | refine addSum_congr ?_ | refine sumR_congr fun j h1 h2 => ?_ | refine bind_congr' ?_ fun _ => ?_
  | u ie =>
    cases xM with
    | cst mM cM =>
      rw [kepEDiff, kepEDiff]
      have he' : ∀ o < n + 1, rd ie o = rd' ie o := hxe
      split
      · repeat' first | rfl | exact he' _ (by omega) | refine addSum_congr ?_ | refine sumR_congr fun j h1 h2 => ?_ | refine bind_congr' ?_ fun _ => ?_
      · repeat' first | rfl | exact ha _ (by omega) | exact hc _ (by omega) | exact hd _ (by omega) | exact he' _ (by omega) | refine addSum_congr ?_ | refine sumR_congr fun j h1 h2 => ?_ | refine bind_congr' ?_ fun _ => ?_
    | u iM =>
      rw [kepEDiff, kepEDiff]
      have he' : ∀ o < n + 1, rd ie o = rd' ie o := hxe
      have hM' : ∀ o < n + 1, rd iM o = rd' iM o := hxM
      split
      · repeat' first | rfl | exact he' _ (by omega) | exact hM' _ (by omega) | refine addSum_congr ?_ | refine sumR_congr fun j h1 h2 => ?_ | refine bind_congr' ?_ fun _ => ?_
      · repeat' first | rfl | exact ha _ (by omega) | exact hc _ (by omega) | exact hd _ (by omega) | exact he' _ (by omega) | exact hM' _ (by omega) | refine addSum_congr ?_ | refine sumR_congr fun j h1 h2 => ?_ | refine bind_congr' ?_ fun _ => ?_

theorem kepFDiff_congr {xh xk xl : TArg K} (ha : ∀ o < n, rd a o = rd' a o) (hc : ∀ o < n, rd c o = rd' c o) (hd : ∀ o < n, rd d o = rd' d o) (he : ∀ o < n, rd e o = rd' e o) (hf : ∀ o < n, rd f o = rd' f o) 
    (hxh : ArgEq rd rd' n xh) (hxk : ArgEq rd rd' n xk) (hxl : ArgEq rd rd' n xl) :
    kepFDiff rd n a c d e f xh xk xl = kepFDiff rd' n a c d e f xh xk xl := by
  cases xh with
  | cst mh ch =>
    cases xk with
    | cst mk ck =>
      cases xl with
      | cst ml cl =>
        rfl
      | u il =>
        rw [kepFDiff, kepFDiff]
        have hl' : ∀ o < n + 1, rd il o = rd' il o := hxl
        split
        · repeat' first | rfl | exact hl' _ (by omega) | refine addSum_congr ?_ | refine sumR_congr fun j h1 h2 => ?_ | refine bind_congr' ?_ fun _ => ?_
        · repeat' first | rfl | exact ha _ (by omega) | exact hc _ (by omega) | exact hd _ (by omega) | exact he _ (by omega) | exact hf _ (by omega) | exact hl' _ (by omega) | refine addSum_congr ?_ | refine sumR_congr fun j h1 h2 => ?_ | refine bind_congr' ?_ fun _ => ?_
    | u ik =>
      cases xl with
      | cst ml cl =>
        rw [kepFDiff, kepFDiff]
        have hk' : ∀ o < n + 1, rd ik o = rd' ik o := hxk
        split
        · repeat' first | rfl | exact hk' _ (by omega) | refine addSum_congr ?_ | refine sumR_congr fun j h1 h2 => ?_ | refine bind_congr' ?_ fun _ => ?_
        · repeat' first | rfl | exact ha _ (by omega) | exact hc _ (by omega) | exact hd _ (by omega) | exact he _ (by omega) | exact hf _ (by omega) | exact hk' _ (by omega) | refine addSum_congr ?_ | refine sumR_congr fun j h1 h2 => ?_ | refine bind_congr' ?_ fun _ => ?_
      | u il =>
        rw [kepFDiff, kepFDiff]
        have hk' : ∀ o < n + 1, rd ik o = rd' ik o := hxk
        have hl' : ∀ o < n + 1, rd il o = rd' il o := hxl
        split
        · repeat' first | rfl | exact hk' _ (by omega) | exact hl' _ (by omega) | refine addSum_congr ?_ | refine sumR_congr fun j h1 h2 => ?_ | refine bind_congr' ?_ fun _ => ?_
        · repeat' first | rfl | exact ha _ (by omega) | exact hc _ (by omega) | exact hd _ (by omega) | exact he _ (by omega) | exact hf _ (by omega) | exact hk' _ (by omega) | exact hl' _ (by omega) | refine addSum_congr ?_ | refine sumR_congr fun j h1 h2 => ?_ | refine bind_congr' ?_ fun _ => ?_
  | u ih =>
    cases xk with
    | cst mk ck =>
      cases xl with
      | cst ml cl =>
        rw [kepFDiff, kepFDiff]
        have hh' : ∀ o < n + 1, rd ih o = rd' ih o := hxh
        split
        · repeat' first | rfl | exact hh' _ (by omega) | refine addSum_congr ?_ | refine sumR_congr fun j h1 h2 => ?_ | refine bind_congr' ?_ fun _ => ?_
        · repeat' first | rfl | exact ha _ (by omega) | exact hc _ (by omega) | exact hd _ (by omega) | exact he _ (by omega) | exact hf _ (by omega) | exact hh' _ (by omega) | refine addSum_congr ?_ | refine sumR_congr fun j h1 h2 => ?_ | refine bind_congr' ?_ fun _ => ?_
      | u il =>
        rw [kepFDiff, kepFDiff]
        have hh' : ∀ o < n + 1, rd ih o = rd' ih o := hxh
        have hl' : ∀ o < n + 1, rd il o = rd' il o := hxl
        split
        · repeat' first | rfl | exact hh' _ (by omega) | exact hl' _ (by omega) | refine addSum_congr ?_ | refine sumR_congr fun j h1 h2 => ?_ | refine bind_congr' ?_ fun _ => ?_
        · repeat' first | rfl | exact ha _ (by omega) | exact hc _ (by omega) | exact hd _ (by omega) | exact he _ (by omega) | exact hf _ (by omega) | exact hh' _ (by omega) | exact hl' _ (by omega) | refine addSum_congr ?_ | refine sumR_congr fun j h1 h2 => ?_ | refine bind_congr' ?_ fun _ => ?_
    | u ik =>
      cases xl with
      | cst ml cl =>
        rw [kepFDiff, kepFDiff]
        have hh' : ∀ o < n + 1, rd ih o = rd' ih o := hxh
        have hk' : ∀ o < n + 1, rd ik o = rd' ik o := hxk
        split
        · repeat' first | rfl | exact hh' _ (by omega) | exact hk' _ (by omega) | refine addSum_congr ?_ | refine sumR_congr fun j h1 h2 => ?_ | refine bind_congr' ?_ fun _ => ?_
        · repeat' first | rfl | exact ha _ (by omega) | exact hc _ (by omega) | exact hd _ (by omega) | exact he _ (by omega) | exact hf _ (by omega) | exact hh' _ (by omega) | exact hk' _ (by omega) | refine addSum_congr ?_ | refine sumR_congr fun j h1 h2 => ?_ | refine bind_congr' ?_ fun _ => ?_
      | u il =>
        rw [kepFDiff, kepFDiff]
        have hh' : ∀ o < n + 1, rd ih o = rd' ih o := hxh
        have hk' : ∀ o < n + 1, rd ik o = rd' ik o := hxk
        have hl' : ∀ o < n + 1, rd il o = rd' il o := hxl
        split
        · repeat' first | rfl | exact hh' _ (by omega) | exact hk' _ (by omega) | exact hl' _ (by omega) | refine addSum_congr ?_ | refine sumR_congr fun j h1 h2 => ?_ | refine bind_congr' ?_ fun _ => ?_
        · repeat' first | rfl | exact ha _ (by omega) | exact hc _ (by omega) | exact hd _ (by omega) | exact he _ (by omega) | exact hf _ (by omega) | exact hh' _ (by omega) | exact hk' _ (by omega) | exact hl' _ (by omega) | refine addSum_congr ?_ | refine sumR_congr fun j h1 h2 => ?_ | refine bind_congr' ?_ fun _ => ?_

theorem sumDiff_congr {as : List (TArg K)} (h : ∀ x ∈ as, ArgEq rd rd' n x) :
    sumDiff rd n as = sumDiff rd' n as := by
  rw [sumDiff, sumDiff, argVals_congr h (by omega)]

theorem prodDiff_congr {x y : TArg K} (hx : ArgEq rd rd' n x) (hy : ArgEq rd rd' n y) :
    prodDiff rd n x y = prodDiff rd' n x y := by
  cases x with
  | cst mx cx =>
    cases y with
    | cst my cy => rfl
    | u iy =>
      have hy' : ∀ o < n + 1, rd iy o = rd' iy o := hy
      rw [prodDiff, prodDiff, hy' n (by omega)]
  | u ix =>
    have hx' : ∀ o < n + 1, rd ix o = rd' ix o := hx
    cases y with
    | cst my cy => rw [prodDiff, prodDiff, hx' n (by omega)]
    | u iy =>
      have hy' : ∀ o < n + 1, rd iy o = rd' iy o := hy
      rw [prodDiff, prodDiff, prodVV, prodVV]
      repeat' first | rfl | exact hx' _ (by omega) | exact hy' _ (by omega) | refine addSum_congr ?_ | refine sumR_congr fun j h1 h2 => ?_ | refine bind_congr' ?_ fun _ => ?_

theorem squareDiff_congr (hb : ∀ o < n + 1, rd b o = rd' b o) : squareDiff rd n b = squareDiff rd' n b := by
  rw [squareDiff, squareDiff]
  split
  · next h => repeat' first | rfl | exact hb _ (by omega) | refine addSum_congr ?_ | refine sumR_congr fun j h1 h2 => ?_ | refine bind_congr' ?_ fun _ => ?_
  · next h =>
    rcases Nat.eq_zero_or_pos n with h0 | h0
    · subst h0; repeat' first | rfl | exact hb _ (by omega) | refine addSum_congr ?_ | refine sumR_congr fun j h1 h2 => ?_ | refine bind_congr' ?_ fun _ => ?_
    · repeat' first | rfl | exact hb _ (by omega) | refine addSum_congr ?_ | refine sumR_congr fun j h1 h2 => ?_ | refine bind_congr' ?_ fun _ => ?_

theorem sqrtDiff_congr (hn : 1 ≤ n) (ha : ∀ o < n, rd a o = rd' a o) (hb : ∀ o < n + 1, rd b o = rd' b o) :
    sqrtDiff rd n a b = sqrtDiff rd' n a b := by
  rw [sqrtDiff, sqrtDiff]
  refine bind_congr' (ha 0 (by omega)) fun _ => bind_congr' (hb n (by omega)) fun _ => ?_
  by_cases h : n % 2 = 1
  · simp only [if_pos h]
    by_cases h1 : 1 < (n - 1) / 2 + 1
    · simp only [if_pos h1]
      repeat' first | rfl | exact ha _ (by omega) | exact hb _ (by omega) | refine addSum_congr ?_ | refine sumR_congr fun j h1 h2 => ?_ | refine bind_congr' ?_ fun _ => ?_
    · simp only [if_neg h1]
  · simp only [if_neg h]
    by_cases h1 : 1 < (n - 2) / 2 + 1
    · simp only [if_pos h1]
      repeat' first | rfl | exact ha _ (by omega) | exact hb _ (by omega) | refine addSum_congr ?_ | refine sumR_congr fun j h1 h2 => ?_ | refine bind_congr' ?_ fun _ => ?_
    · simp only [if_neg h1]
      repeat' first | rfl | exact ha _ (by omega) | exact hb _ (by omega) | refine addSum_congr ?_ | refine sumR_congr fun j h1 h2 => ?_ | refine bind_congr' ?_ fun _ => ?_

theorem powDiff_congr {algo : PowAlgo} {x y : TArg K} (ha : ∀ o < n, rd a o = rd' a o)
    (hx : ArgEq rd rd' n x) (hy : ArgEq rd rd' n y) : powDiff algo rd n a x y = powDiff algo rd' n a x y := by
  cases x with
  | cst mx cx => cases y <;> rfl
  | u b =>
    have hb : ∀ o < n + 1, rd b o = rd' b o := hx
    cases y with
    | u iy => rfl
    | cst m e =>
      rw [powDiff, powDiff, hb 0 (by omega)]
      split
      · rfl
      · next hn =>
        rw [sqrtDiff_congr (by omega) ha hb, squareDiff_congr hb, powGenDiff, powGenDiff]
        split
        · rfl
        · split
          · rfl
          · repeat' first | rfl | exact ha _ (by omega) | exact hb _ (by omega) | refine addSum_congr ?_ | refine sumR_congr fun j h1 h2 => ?_ | refine bind_congr' ?_ fun _ => ?_

theorem subDiff_congr {x y : TArg K} (hx : ArgEq rd rd' n x) (hy : ArgEq rd rd' n y) :
    subDiff rd n x y = subDiff rd' n x y := by
  cases x with
  | cst mx cx =>
    cases y with
    | cst my cy => rfl
    | u iy =>
      have hy' : ∀ o < n + 1, rd iy o = rd' iy o := hy
      rw [subDiff, subDiff, hy' n (by omega)]
  | u ix =>
    have hx' : ∀ o < n + 1, rd ix o = rd' ix o := hx
    cases y with
    | cst my cy => rw [subDiff, subDiff, hx' n (by omega)]
    | u iy =>
      have hy' : ∀ o < n + 1, rd iy o = rd' iy o := hy
      rw [subDiff, subDiff, hx' n (by omega), hy' n (by omega)]

theorem divDiff_congr {x y : TArg K} (ha : ∀ o < n, rd a o = rd' a o)
    (hx : ArgEq rd rd' n x) (hy : ArgEq rd rd' n y) : divDiff rd n a x y = divDiff rd' n a x y := by
  cases y with
  | cst my cy =>
    cases x with
    | cst mx cx => rfl
    | u ix =>
      have hx' : ∀ o < n + 1, rd ix o = rd' ix o := hx
      rw [divDiff, divDiff, hx' n (by omega)]
  | u iy =>
    have hy' : ∀ o < n + 1, rd iy o = rd' iy o := hy
    cases x with
    | cst mx cx =>
      rw [divDiff, divDiff]
      split
      · next h => repeat' first | rfl | exact ha _ (by omega) | exact hy' _ (by omega) | refine addSum_congr ?_ | refine sumR_congr fun j h1 h2 => ?_ | refine bind_congr' ?_ fun _ => ?_
      · next h => repeat' first | rfl | exact ha _ (by omega) | exact hy' _ (by omega) | refine addSum_congr ?_ | refine sumR_congr fun j h1 h2 => ?_ | refine bind_congr' ?_ fun _ => ?_
    | u ix =>
      have hx' : ∀ o < n + 1, rd ix o = rd' ix o := hx
      rw [divDiff, divDiff]
      split
      · next h => rw [argVal_congr hx (by omega), hy' 0 (by omega)]
      · next h =>
        have hxn := hx' n (by omega)
        simp only [hxn]
        repeat' first | rfl | exact ha _ (by omega) | exact hy' _ (by omega) | refine addSum_congr ?_ | refine sumR_congr fun j h1 h2 => ?_ | refine bind_congr' ?_ fun _ => ?_

theorem sqHalf_congr {hi : Nat} {x : TArg K} (hx : ArgEq rd rd' n x) (hhi : hi ≤ n + 1) :
    sqHalf rd n hi x = sqHalf rd' n hi x := by
  cases x with
  | cst m c => rfl
  | u i =>
    have hx' : ∀ o < n + 1, rd i o = rd' i o := hx
    rw [sqHalf, sqHalf]
    refine sumR_congr fun j h1 h2 => ?_
    rw [hx' (n - j) (by omega), hx' j (by omega)]

theorem sumSqDiff_congr {as : List (TArg K)} (h : ∀ x ∈ as, ArgEq rd rd' n x) :
    sumSqDiff rd n as = sumSqDiff rd' n as := by
  rw [sumSqDiff, sumSqDiff]
  split
  · rw [mapArgs_congr fun x hx => sqHalf_congr (h x hx) (by omega)]
  · rw [mapArgs_congr (g' := sqEven rd' n) fun x hx => ?_]
    rw [sqEven, sqEven]
    have hm : sqMid rd n x = sqMid rd' n x := by
      cases x with
      | cst m c => rfl
      | u i =>
        have hx' : ∀ o < n + 1, rd i o = rd' i o := h _ hx
        rw [sqMid, sqMid, hx' (n / 2) (by omega)]
    rw [hm]
    by_cases h0 : 0 < n
    · simp only [if_pos h0]
      rw [sqHalf_congr (h x hx) (by omega)]
    · simp only [if_neg h0]

theorem reluDiff_congr {s : K} {x : TArg K} (hx : ArgEq rd rd' n x) : reluDiff s rd n x = reluDiff s rd' n x := by
  cases x with
  | cst m c => rfl
  | u i =>
    have hx' : ∀ o < n + 1, rd i o = rd' i o := hx
    rw [reluDiff, reluDiff, hx' 0 (by omega), hx' n (by omega)]

theorem relupDiff_congr {s : K} {x : TArg K} (hx : ArgEq rd rd' n x) :
    relupDiff s rd n x = relupDiff s rd' n x := by
  cases x with
  | cst m c => rfl
  | u i =>
    have hx' : ∀ o < n + 1, rd i o = rd' i o := hx
    rw [relupDiff, relupDiff, hx' 0 (by omega)]

theorem selectDiff_congr {x y z : TArg K} (hx : ArgEq rd rd' n x) (hy : ArgEq rd rd' n y)
    (hz : ArgEq rd rd' n z) : selectDiff rd n x y z = selectDiff rd' n x y z := by
  rw [selectDiff, selectDiff, argVal_congr hx (by omega), argVal_congr hy (by omega),
    argVal_congr hz (by omega)]

theorem boolDiff_congr {g : Fn K} {as : List (TArg K)} (h : ∀ x ∈ as, ArgEq rd rd' n x) :
    boolDiff g rd n as = boolDiff g rd' n as := by
  rw [boolDiff, boolDiff, argVals_congr h (by omega)]

theorem unDiff_congr {g : Fn K} {deps : List Nat} {as : List (TArg K)} {v v' : Nat → Res (V K)}
    (h : ∀ b, TArg.u b ∈ as → v b = v' b) : unDiff g n deps as v = unDiff g n deps as v' := by
  rcases as with _ | ⟨x, _ | ⟨y, l⟩⟩
  · rfl
  · cases x with
    | cst m c => rfl
    | u i => simp only [unDiff, h i (by simp)]
  · rfl

theorem unDiff1_congr {g : Fn K} {deps : List Nat} {as : List (TArg K)} {v v' : Nat → Nat → Res (V K)}
    (h : ∀ d ∈ deps, ∀ b, TArg.u b ∈ as → v d b = v' d b) : unDiff1 g n deps as v = unDiff1 g n deps as v' := by
  rcases as with _ | ⟨x, _ | ⟨y, l⟩⟩
  · rfl
  · rcases deps with _ | ⟨d, _ | ⟨d', l⟩⟩
    · rfl
    · cases x with
      | cst m c => rfl
      | u i => simp only [unDiff1, h d (by simp) i (by simp)]
    · rfl
  · rfl

/-- The recurrence of order `n` depends only on the readings listed. -/
theorem taylorDiff_congr (time : K) {idx : Nat} {deps : List Nat} (g : Fn K) {as : List (TArg K)}
    (hself : ∀ o < n, rd idx o = rd' idx o) (hdep : ∀ d ∈ deps, ∀ o < n, rd d o = rd' d o)
    (harg : ∀ i, TArg.u i ∈ as → ∀ o < n + 1, rd i o = rd' i o) :
    taylorDiff time rd n idx deps g as = taylorDiff time rd' n idx deps g as := by
  have hA : ∀ x ∈ as, ArgEq rd rd' n x := by
    intro x hx
    cases x with
    | cst m c => trivial
    | u i => exact harg i hx
  cases g with
  | sum => simp only [taylorDiff, sumDiff_congr hA]
  | sumSq => simp only [taylorDiff, sumSqDiff_congr hA]
  | land => simp only [taylorDiff, boolDiff_congr hA]
  | lor => simp only [taylorDiff, boolDiff_congr hA]
  | prod k =>
    rcases as with _ | ⟨x, _ | ⟨y, _ | ⟨z, l⟩⟩⟩ <;> simp only [taylorDiff]
    rw [prodDiff_congr (hA x (by simp)) (hA y (by simp))]
  | pow k =>
    rcases as with _ | ⟨x, _ | ⟨y, _ | ⟨z, l⟩⟩⟩ <;> simp only [taylorDiff]
    rw [powDiff_congr hself (hA x (by simp)) (hA y (by simp))]
  | sub =>
    rcases as with _ | ⟨x, _ | ⟨y, _ | ⟨z, l⟩⟩⟩ <;> simp only [taylorDiff]
    rw [subDiff_congr (hA x (by simp)) (hA y (by simp))]
  | div =>
    rcases as with _ | ⟨x, _ | ⟨y, _ | ⟨z, l⟩⟩⟩ <;> simp only [taylorDiff]
    rw [divDiff_congr hself (hA x (by simp)) (hA y (by simp))]
  | rel op =>
    rcases as with _ | ⟨x, _ | ⟨y, _ | ⟨z, l⟩⟩⟩ <;> simp only [taylorDiff]
    rw [boolDiff_congr hA]
  | relu s =>
    rcases as with _ | ⟨x, _ | ⟨y, l⟩⟩ <;> simp only [taylorDiff]
    rw [reluDiff_congr (hA x (by simp))]
  | relup s =>
    rcases as with _ | ⟨x, _ | ⟨y, l⟩⟩ <;> simp only [taylorDiff]
    rw [relupDiff_congr (hA x (by simp))]
  | select =>
    rcases as with _ | ⟨x, _ | ⟨y, _ | ⟨z, _ | ⟨w, l⟩⟩⟩⟩ <;> simp only [taylorDiff]
    rw [selectDiff_congr (hA x (by simp)) (hA y (by simp)) (hA z (by simp))]
  | atan2 =>
    rcases as with _ | ⟨x, _ | ⟨y, _ | ⟨z, l⟩⟩⟩ <;> simp only [taylorDiff]
    rcases deps with _ | ⟨d, _ | ⟨d', l⟩⟩
    · rfl
    · exact atan2Diff_congr hself (hdep d (by simp)) (hA x (by simp)) (hA y (by simp))
    · rfl
  | kepE =>
    rcases as with _ | ⟨x, _ | ⟨y, _ | ⟨z, l⟩⟩⟩ <;> simp only [taylorDiff]
    rcases deps with _ | ⟨c, _ | ⟨d, _ | ⟨d', l⟩⟩⟩
    · rfl
    · rfl
    · exact kepEDiff_congr hself (hdep c (by simp)) (hdep d (by simp)) (hA x (by simp)) (hA y (by simp))
    · rfl
  | kepF =>
    rcases as with _ | ⟨x, _ | ⟨y, _ | ⟨z, _ | ⟨w, l⟩⟩⟩⟩ <;> simp only [taylorDiff]
    rcases deps with _ | ⟨c, _ | ⟨d, _ | ⟨e, _ | ⟨f, _ | ⟨d', l⟩⟩⟩⟩⟩
    · rfl
    · rfl
    · rfl
    · rfl
    · exact kepFDiff_congr hself (hdep c (by simp)) (hdep d (by simp)) (hdep e (by simp)) (hdep f (by simp))
        (hA x (by simp)) (hA y (by simp)) (hA z (by simp))
    · rfl
  | exp => simp only [taylorDiff]; exact unDiff_congr fun b hb => expDiff_congr hself (harg b hb)
  | log => simp only [taylorDiff]; exact unDiff_congr fun b hb => logDiff_congr hself (harg b hb)
  | sin k => simp only [taylorDiff]; exact unDiff1_congr fun d hd b hb => sinDiff_congr (hdep d hd) (harg b hb)
  | cos k => simp only [taylorDiff]; exact unDiff1_congr fun d hd b hb => cosDiff_congr (hdep d hd) (harg b hb)
  | tan => simp only [taylorDiff]; exact unDiff1_congr fun d hd b hb => tanDiff_congr (hdep d hd) (harg b hb)
  | sinh => simp only [taylorDiff]; exact unDiff1_congr fun d hd b hb => sinDiff_congr (hdep d hd) (harg b hb)
  | cosh => simp only [taylorDiff]; exact unDiff1_congr fun d hd b hb => sinDiff_congr (hdep d hd) (harg b hb)
  | tanh => simp only [taylorDiff]; exact unDiff1_congr fun d hd b hb => tanhDiff_congr (hdep d hd) (harg b hb)
  | erf => simp only [taylorDiff]; exact unDiff1_congr fun d hd b hb => erfDiff_congr (hdep d hd) (harg b hb)
  | asin => simp only [taylorDiff]; exact unDiff1_congr fun d hd b hb => asinDiff_congr hself (hdep d hd) (harg b hb)
  | acos => simp only [taylorDiff]; exact unDiff1_congr fun d hd b hb => acosDiff_congr hself (hdep d hd) (harg b hb)
  | atan => simp only [taylorDiff]; exact unDiff1_congr fun d hd b hb => atanDiff_congr hself (hdep d hd) (harg b hb)
  | asinh => simp only [taylorDiff]; exact unDiff1_congr fun d hd b hb => asinDiff_congr hself (hdep d hd) (harg b hb)
  | acosh => simp only [taylorDiff]; exact unDiff1_congr fun d hd b hb => asinDiff_congr hself (hdep d hd) (harg b hb)
  | atanh => simp only [taylorDiff]; exact unDiff1_congr fun d hd b hb => atanhDiff_congr hself (hdep d hd) (harg b hb)
  | sigmoid => simp only [taylorDiff]; exact unDiff1_congr fun d hd b hb => sigmoidDiff_congr hself (hdep d hd) (harg b hb)
  | time => rfl
  | const s => rfl
  | numId =>
    rcases as with _ | ⟨x, _ | ⟨y, l⟩⟩
    · rfl
    · cases x with
      | u i => rfl
      | cst m c => cases m <;> rfl
    · simp only [taylorDiff]
  | kepDE => rfl
  | dfun s t => rfl
  | other s => rfl

end Heyoka.Taylor
