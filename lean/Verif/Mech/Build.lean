import Verif.Mech.Linear
import Verif.Props.AD

/-!
# The time as a variable, the checks of the arguments, the matrix of the system
-/

set_option linter.unusedSectionVars false

namespace Heyoka.Mech

open Heyoka.Sym Heyoka.Dtens Heyoka.AD

/-! ### The checks -/

section
variable {K : Type}

theorem checkVars_ok {es : List (Expr K)} : ∀ {l : List String}, checkVars es = .ok l ↔
    es = l.map .var ∧ ∀ s ∈ l, reserved s = false := by
  induction es with
  | nil =>
    intro l
    rw [checkVars]
    cases l <;> simp
  | cons e es ih =>
    intro l
    cases e with
    | var s =>
      rw [checkVars]
      by_cases hr : reserved s = true
      · rw [if_pos hr]
        cases l with
        | nil => simp
        | cons t l =>
          simp only [List.map_cons, List.cons.injEq, Expr.var.injEq, List.mem_cons]
          constructor
          · intro h; cases h
          · rintro ⟨⟨rfl, -⟩, h⟩
            rw [h s (.inl rfl)] at hr
            cases hr
      · rw [if_neg hr]
        cases hc : checkVars es with
        | ok l' =>
          obtain ⟨h1, h2⟩ := ih.1 hc
          rw [Res.bind_ok]
          constructor
          · intro h
            cases h
            refine ⟨by rw [h1]; rfl, fun t ht => ?_⟩
            rcases List.mem_cons.1 ht with rfl | ht
            · simpa using hr
            · exact h2 t ht
          · rintro ⟨h3, h4⟩
            cases l with
            | nil => cases h3
            | cons t l =>
              rw [List.map_cons, List.cons.injEq] at h3
              have := ih.2 ⟨h3.2, fun s hs => h4 s (List.mem_cons_of_mem _ hs)⟩
              rw [hc] at this
              cases this
              have := h3.1
              cases this
              rfl
        | throw =>
          rw [Res.bind_throw]
          constructor
          · intro h; cases h
          · rintro ⟨h3, h4⟩
            cases l with
            | nil => cases h3
            | cons t l =>
              rw [List.map_cons, List.cons.injEq] at h3
              have := ih.2 ⟨h3.2, fun s hs => h4 s (List.mem_cons_of_mem _ hs)⟩
              rw [hc] at this
              cases this
        | ub =>
          rw [Res.bind_ub]
          constructor
          · intro h; cases h
          · rintro ⟨h3, h4⟩
            cases l with
            | nil => cases h3
            | cons t l =>
              rw [List.map_cons, List.cons.injEq] at h3
              have := ih.2 ⟨h3.2, fun s hs => h4 s (List.mem_cons_of_mem _ hs)⟩
              rw [hc] at this
              cases this
    | num n => cases l <;> simp [checkVars]
    | par n => cases l <;> simp [checkVars]
    | fn f args => cases l <;> simp [checkVars]

theorem checkVars_no_ub (es : List (Expr K)) : checkVars es ≠ .ub := by
  induction es with
  | nil => simp [checkVars]
  | cons e es ih =>
    cases e with
    | var s =>
      rw [checkVars]
      split_ifs
      · simp
      · cases hc : checkVars es <;> simp [hc] at ih ⊢
    | num n => simp [checkVars]
    | par n => simp [checkVars]
    | fn f args => simp [checkVars]

/-- Names of coordinates and of velocities or momenta that are accepted. -/
structure Coords (q p : List String) : Prop where
  len : q.length = p.length
  ne : q ≠ []
  nodup : (q ++ p).Nodup
  free : ∀ s ∈ q ++ p, reserved s = false

theorem checkState_ok {qs ps : List (Expr K)} {q p : List String} :
    checkState qs ps = .ok (q, p) ↔ qs = q.map .var ∧ ps = p.map .var ∧ Coords q p := by
  unfold checkState
  constructor
  · intro h
    by_cases h1 : qs.length ≠ ps.length
    · rw [if_pos h1] at h; cases h
    rw [if_neg h1] at h
    by_cases h2 : qs.isEmpty = true
    · rw [if_pos h2] at h; cases h
    rw [if_neg h2] at h
    cases hq : checkVars qs with
    | throw => rw [hq] at h; cases h
    | ub => rw [hq] at h; cases h
    | ok q' =>
      cases hp : checkVars ps with
      | throw => rw [hq, hp] at h; cases h
      | ub => rw [hq, hp] at h; cases h
      | ok p' =>
        rw [hq, hp, Res.bind_ok, Res.bind_ok] at h
        by_cases h3 : ¬ q'.Nodup
        · rw [if_pos h3] at h; cases h
        rw [if_neg h3] at h
        by_cases h4 : ¬ p'.Nodup
        · rw [if_pos h4] at h; cases h
        rw [if_neg h4] at h
        by_cases h5 : (q'.any fun s => p'.contains s) = true
        · rw [if_pos h5] at h; cases h
        rw [if_neg h5] at h
        cases h
        obtain ⟨e1, f1⟩ := checkVars_ok.1 hq
        obtain ⟨e2, f2⟩ := checkVars_ok.1 hp
        refine ⟨e1, e2, ?_, ?_, ?_, ?_⟩
        · simpa [e1, e2] using h1
        · rintro rfl
          rw [e1] at h2
          exact h2 rfl
        · rw [List.nodup_append]
          refine ⟨not_not.1 h3, not_not.1 h4, fun a ha b hb hab => h5 ?_⟩
          rw [List.any_eq_true]
          exact ⟨a, ha, by rw [hab]; simpa using hb⟩
        · intro s hs
          rcases List.mem_append.1 hs with hs | hs
          · exact f1 s hs
          · exact f2 s hs
  · rintro ⟨rfl, rfl, hc⟩
    have hn := List.nodup_append.1 hc.nodup
    rw [if_neg (by simpa using hc.len), if_neg (by simpa using hc.ne),
      checkVars_ok.2 ⟨rfl, fun s hs => hc.free s (by simp [hs])⟩, Res.bind_ok,
      checkVars_ok.2 ⟨rfl, fun s hs => hc.free s (by simp [hs])⟩, Res.bind_ok, if_neg (not_not.2 hn.1),
      if_neg (not_not.2 hn.2.1), if_neg]
    rw [List.any_eq_true]
    rintro ⟨s, hs, h⟩
    exact hn.2.2 s hs s (by simpa using h) rfl

theorem checkState_no_ub (qs ps : List (Expr K)) : checkState qs ps ≠ .ub := by
  unfold checkState
  split_ifs
  · simp
  · simp
  · have h1 := checkVars_no_ub qs
    have h2 := checkVars_no_ub ps
    cases hq : checkVars qs with
    | throw => simp
    | ub => exact absurd hq h1
    | ok q =>
      cases hp : checkVars ps with
      | throw => simp
      | ub => exact absurd hp h2
      | ok p =>
        rw [Res.bind_ok, Res.bind_ok]
        split_ifs <;> simp

/-- The variables of an expression. -/
def Vars (e : Expr K) (s : String) : Prop := Expr.Sub (.var s) e

theorem mem_inVars {e : Expr K} {s : String} : s ∈ inVars [e] ↔ Vars e s := by
  unfold inVars Vars
  rw [mem_sortedSet]
  simp only [List.flatMap_cons, List.flatMap_nil, List.append_nil, List.mem_filterMap]
  constructor
  · rintro ⟨a, ha, hs⟩
    cases a <;> simp [leafVar] at hs
    subst hs
    exact ((mem_leaves e).1 ha).1
  · intro h
    exact ⟨.var s, (mem_leaves e).2 ⟨h, rfl⟩, rfl⟩

theorem hamCheck_ok {H : Expr K} {qs ps : List (Expr K)} {q p : List String} :
    hamCheck H qs ps = .ok (q, p) ↔ qs = q.map .var ∧ ps = p.map .var ∧ Coords q p ∧ ∀ s, Vars H s → s ∈ q ++ p := by
  unfold hamCheck
  have hall : ∀ r : List String × List String, ((inVars [H]).all fun s => r.1.contains s || r.2.contains s) = true ↔
      ∀ s, Vars H s → s ∈ r.1 ++ r.2 := by
    intro r
    rw [List.all_eq_true]
    simp only [mem_inVars, Bool.or_eq_true, List.contains_iff_mem, List.mem_append]
  constructor
  · intro h
    cases hc : checkState qs ps with
    | throw => rw [hc] at h; cases h
    | ub => rw [hc] at h; cases h
    | ok r =>
      rw [hc, Res.bind_ok] at h
      by_cases ha : ((inVars [H]).all fun s => r.1.contains s || r.2.contains s) = true
      · rw [if_pos ha] at h
        cases h
        obtain ⟨h1, h2, h3⟩ := checkState_ok.1 hc
        exact ⟨h1, h2, h3, (hall _).1 ha⟩
      · rw [if_neg ha] at h; cases h
  · rintro ⟨h1, h2, h3, h4⟩
    rw [checkState_ok.2 ⟨h1, h2, h3⟩, Res.bind_ok, if_pos ((hall _).2 h4)]

theorem lagCheck_ok {L D : Expr K} {qs ps : List (Expr K)} {q p : List String} :
    lagCheck L qs ps D = .ok (q, p) ↔ qs = q.map .var ∧ ps = p.map .var ∧ Coords q p ∧
      (∀ s, Vars L s → s ∈ q ++ p) ∧ ∀ s, Vars D s → s ∈ p := by
  unfold lagCheck
  have hall : ∀ r : List String × List String, ((inVars [L]).all fun s => r.1.contains s || r.2.contains s) = true ↔
      ∀ s, Vars L s → s ∈ r.1 ++ r.2 := by
    intro r
    rw [List.all_eq_true]
    simp only [mem_inVars, Bool.or_eq_true, List.contains_iff_mem, List.mem_append]
  have hall' : ∀ r : List String × List String, ((inVars [D]).all fun s => r.2.contains s) = true ↔
      ∀ s, Vars D s → s ∈ r.2 := by
    intro r
    rw [List.all_eq_true]
    simp only [mem_inVars, List.contains_iff_mem]
  constructor
  · intro h
    cases hc : checkState qs ps with
    | throw => rw [hc] at h; cases h
    | ub => rw [hc] at h; cases h
    | ok r =>
      rw [hc, Res.bind_ok] at h
      by_cases ha : ((inVars [L]).all fun s => r.1.contains s || r.2.contains s) = true
      · rw [if_pos ha] at h
        by_cases hb : ((inVars [D]).all fun s => r.2.contains s) = true
        · rw [if_pos hb] at h
          cases h
          obtain ⟨h1, h2, h3⟩ := checkState_ok.1 hc
          exact ⟨h1, h2, h3, (hall _).1 ha, (hall' _).1 hb⟩
        · rw [if_neg hb] at h; cases h
      · rw [if_neg ha] at h; cases h
  · rintro ⟨h1, h2, h3, h4, h5⟩
    rw [checkState_ok.2 ⟨h1, h2, h3⟩, Res.bind_ok, if_pos ((hall _).2 h4), if_pos ((hall' _).2 h5)]

theorem hamCheck_no_ub (H : Expr K) (qs ps : List (Expr K)) : hamCheck H qs ps ≠ .ub := by
  unfold hamCheck
  cases hc : checkState qs ps with
  | throw => simp
  | ub => exact absurd hc (checkState_no_ub _ _)
  | ok r => rw [Res.bind_ok]; split_ifs <;> simp

theorem lagCheck_no_ub (L : Expr K) (qs ps : List (Expr K)) (D : Expr K) : lagCheck L qs ps D ≠ .ub := by
  unfold lagCheck
  cases hc : checkState qs ps with
  | throw => simp
  | ub => exact absurd hc (checkState_no_ub _ _)
  | ok r => rw [Res.bind_ok]; split_ifs <;> simp

end

/-! ### The time -/

section
variable [FmtName ℝ] {H : ℝ → Prop} {v : Env ℝ} {e : Expr ℝ}

theorem mapFind_one {k r : Expr ℝ} (e : Expr ℝ) : Sym.mapFind [(k, r)] e = if k.beq e = true then some r else none := by
  cases h : Sym.mapFind [(k, r)] e with
  | some r' =>
    obtain ⟨k', hk, hb⟩ := mapFind_some h
    simp only [List.mem_singleton, Prod.mk.injEq] at hk
    obtain ⟨rfl, rfl⟩ := hk
    rw [if_pos hb]
  | none => rw [if_neg (by simp [mapFind_none h (k, r) (by simp)])]

theorem time_beq (hH : HexOk H) {f : Fn ℝ} {args : List (Expr ℝ)} (hf : f.libD H) :
    (timeE : Expr ℝ).beq (.fn f args) = true ↔ f = .time ∧ args = [] := by
  have h1 : (timeE : Expr ℝ).beq (.fn f args) = ((Fn.time : Fn ℝ).name == f.name && Expr.beqL [] args) := by
    rw [timeE, Expr.beq]
  rw [h1]
  constructor
  · intro h
    simp only [Bool.and_eq_true, beq_iff_eq] at h
    obtain ⟨h2, h3⟩ := h
    refine ⟨?_, ?_⟩
    · have := ((lib_norm_sound hH).name .time f (.inl (.inl trivial)) hf h2).2
      exact this.1 rfl
    · cases args with
      | nil => rfl
      | cons a as => simp [Expr.beqL] at h3
  · rintro ⟨rfl, rfl⟩
    simp [Expr.beqL]

theorem eval_timeToVar (hH : HexOk H) (he : LibExpr H e) (v : Env ℝ) :
    (timeToVar e).eval v = e.eval { v with time := v.var "__tm" } := by
  unfold timeToVar
  induction e using Expr.ind with
  | num n => simp [Expr.replace, mapFind_one, timeE, Expr.beq]
  | var s => simp [Expr.replace, mapFind_one, timeE, Expr.beq]
  | par i => simp [Expr.replace, mapFind_one, timeE, Expr.beq]
  | fn f args ih =>
    obtain ⟨hf, ha⟩ := goodS_fn.1 he
    rw [Expr.replace, Expr.replaceL_eq_map, mapFind_one]
    by_cases hb : (timeE : Expr ℝ).beq (.fn f args) = true
    · rw [if_pos hb, Option.getD_some]
      obtain ⟨rfl, rfl⟩ := (time_beq hH hf.1).1 hb
      rfl
    · rw [if_neg hb, Option.getD_none]
      rw [time_beq hH hf.1] at hb
      have h1 : f ≠ .time ∨ args ≠ [] := by
        by_contra hc
        push Not at hc
        exact hb hc
      have h2 : f ≠ .time ∨ args.map (Expr.replace (Sym.mapFind [(timeE, .var "__tm")])) ≠ [] := by
        rcases h1 with h1 | h1
        · exact .inl h1
        · exact .inr (by simpa using h1)
      rw [Expr.eval_fn _ _ _ h2, Expr.eval_fn _ _ _ h1]
      rw [Expr.evalL_congr_map (w := { v with time := v.var "__tm" }) fun e he => ih e he (ha e he)]

theorem eval_varToTime (e : Expr ℝ) (v : Env ℝ) : (varToTime e).eval v = e.eval (v.set (.var "__tm") v.time) := by
  unfold varToTime
  induction e using Expr.ind with
  | num n => simp [Expr.replace, mapFind_one, Expr.beq]
  | var s =>
    rw [Expr.replace, mapFind_one]
    by_cases h : s = "__tm"
    · subst h
      simp [Expr.beq, timeE, Expr.eval, Env.set]
    · have : (Expr.var "__tm" : Expr ℝ).beq (.var s) = false := by simp [Expr.beq, Ne.symm h]
      rw [this]
      simp [Env.set, h]
  | par i => simp [Expr.replace, mapFind_one, Expr.beq, Env.set]
  | fn f args ih =>
    rw [Expr.replace, Expr.replaceL_eq_map, mapFind_one]
    have : (Expr.var "__tm" : Expr ℝ).beq (.fn f args) = false := by simp [Expr.beq]
    rw [this]
    simp only [Bool.false_eq_true, if_false, Option.getD_none]
    exact Expr.eval_fn_congr (by simp) f ih

theorem timeToVar_lib (he : LibExpr H e) : LibExpr H (timeToVar e) := by
  unfold timeToVar
  have key : ∀ (e d : Expr ℝ), LibExpr H d → LibExpr H ((Sym.mapFind [((timeE : Expr ℝ), (.var "__tm" : Expr ℝ))] e).getD d) := by
    intro e d hd
    rw [mapFind_one]
    split_ifs
    · exact trivial
    · exact hd
  induction e using Expr.ind with
  | num n => exact key _ _ trivial
  | var s => exact key _ _ trivial
  | par i => exact key _ _ trivial
  | fn f args ih =>
    obtain ⟨hf, ha⟩ := goodS_fn.1 he
    rw [Expr.replace, Expr.replaceL_eq_map]
    refine key _ _ (goodS_fn.2 ⟨by simpa using hf, fun a ha' => ?_⟩)
    obtain ⟨b, hb, rfl⟩ := List.mem_map.1 ha'
    exact ih b hb (ha b hb)

end

/-! ### The matrix -/

section
variable {n : Nat} {Ldt Ddt : Dt (Expr ℝ)}

theorem rowLoop_eq {i : Nat} {α β : Nat → Expr ℝ} (qds : List (Expr ℝ)) : ∀ {j : Nat},
    (∀ k, j ≤ k → k < j + qds.length → Ldt.at (massKey n i k) = .ok (α k) ∧ Ldt.at (0, [(k, 1), (n + i, 1)]) = .ok (β k)) →
    rowLoop n i Ldt j qds =
      .ok ((List.range' j qds.length).map α, (qds.zipIdx j).map fun p => mulE (negE (β p.2)) p.1) := by
  induction qds with
  | nil => intro j _; rfl
  | cons qd qds ih =>
    intro j h
    obtain ⟨h1, h2⟩ := h j le_rfl (by simp)
    rw [rowLoop, h1, Res.bind_ok, h2, Res.bind_ok, ih fun k hk hk' => h k (by omega) (by simp at hk' ⊢; omega)]
    rfl

/-- The right-hand side of an equation. -/
noncomputable def rhsE (a b c : Expr ℝ) (β : Nat → Expr ℝ) (qds : List (Expr ℝ)) : Expr ℝ :=
  sumE (a :: negE b :: negE c :: qds.zipIdx.map fun p => mulE (negE (β p.2)) p.1)

theorem buildRows_eq {α β : Nat → Nat → Expr ℝ} {a b c : Nat → Expr ℝ} {qds : List (Expr ℝ)} {is : List Nat}
    (h : ∀ i ∈ is, Ldt.at (0, [(i, 1)]) = .ok (a i) ∧ Ldt.at (0, [(n + i, 1), (n * 2, 1)]) = .ok (b i) ∧
      Ddt.at (0, [(i, 1)]) = .ok (c i) ∧ ∀ j, j < qds.length →
        Ldt.at (massKey n i j) = .ok (α i j) ∧ Ldt.at (0, [(j, 1), (n + i, 1)]) = .ok (β i j)) :
    buildRows n Ldt Ddt qds is =
      .ok (is.map fun i => (List.range qds.length).map (α i) ++ [rhsE (a i) (b i) (c i) (β i) qds]) := by
  induction is with
  | nil => rfl
  | cons i is ih =>
    obtain ⟨h1, h2, h3, h4⟩ := h i (by simp)
    rw [buildRows, buildRow, h1, Res.bind_ok, h2, Res.bind_ok, h3, Res.bind_ok,
      rowLoop_eq (α := α i) (β := β i) qds fun k _ hk => h4 k (by omega), Res.bind_ok, Res.bind_ok,
      ih fun i hi => h i (by simp [hi]), Res.bind_ok, List.map_cons, List.range_eq_range']
    rfl

theorem buildLinmat_eq {α β : Nat → Nat → Expr ℝ} {a b c : Nat → Expr ℝ} {qds : List (Expr ℝ)} (hl : qds.length = n)
    (h : ∀ i, i < n → Ldt.at (0, [(i, 1)]) = .ok (a i) ∧ Ldt.at (0, [(n + i, 1), (n * 2, 1)]) = .ok (b i) ∧
      Ddt.at (0, [(i, 1)]) = .ok (c i) ∧ ∀ j, j < n →
        Ldt.at (massKey n i j) = .ok (α i j) ∧ Ldt.at (0, [(j, 1), (n + i, 1)]) = .ok (β i j)) :
    ∃ A, buildLinmat n Ldt Ddt qds = .ok A ∧ ∀ i, i < n → (∀ j, j < n → A i j = α i j) ∧
      A i n = rhsE (a i) (b i) (c i) (β i) qds := by
  refine ⟨_, by rw [buildLinmat, buildRows_eq (α := α) (β := β) (a := a) (b := b) (c := c), Res.bind_ok]; intro i hi;
                rw [hl]; exact h i (List.mem_range.1 hi), fun i hi => ⟨fun j hj => ?_, ?_⟩⟩
  · simp [matOf, hi, hl, List.getElem?_append, hj]
  · simp [matOf, hi, hl]

end
end Heyoka.Mech
