import Verif.Callback.Model
import Mathlib.Analysis.Real.Pi.Bounds
import Mathlib.Data.Rat.Floor
import Mathlib.Tactic.Linarith
import Mathlib.Tactic.FieldSimp
import Mathlib.Tactic.Ring

/-!
# C39, C40: sets of step callbacks, the angle reducer
-/

namespace Heyoka.Callback

variable {W : Type}

/-! ### C39 -/

/-- Specification: the callbacks are run one after the other, each once, from `w` to `w'`, with the
results `bs`. -/
inductive Runs : List (Cb W) → W → List Bool → W → Prop
  | nil (w : W) : Runs [] w [] w
  | cons {c : Cb W} {cs : List (Cb W)} {w w1 w2 : W} {b : Bool} {bs : List Bool}
      (h : c.call w = .ok (b, w1)) (hs : Runs cs w1 bs w2) : Runs (c :: cs) w (b :: bs) w2

/-- Specification: the callbacks before `c` are run, and `c` throws. -/
def Throws (cs : List (Cb W)) (w : W) : Prop :=
  ∃ pre c post bs w', cs = pre ++ c :: post ∧ Runs pre w bs w' ∧ c.call w' = .throw

theorem callLoop_ok (cs : List (Cb W)) : ∀ (b0 b : Bool) (w w' : W),
    callLoop b0 cs w = .ok (b, w') ↔ ∃ bs, Runs cs w bs w' ∧ b = (b0 && bs.all id) := by
  induction cs with
  | nil =>
    intro b0 b w w'
    constructor
    · intro h
      cases h
      exact ⟨[], .nil _, by simp⟩
    · rintro ⟨bs, h, rfl⟩
      cases h
      simp [callLoop]
  | cons c cs ih =>
    intro b0 b w w'
    rw [callLoop]
    constructor
    · intro h
      cases hc : c.call w with
      | ok p =>
        obtain ⟨r, w1⟩ := p
        rw [hc, Res.bind_ok] at h
        obtain ⟨bs, h1, h2⟩ := (ih _ _ _ _).1 h
        refine ⟨r :: bs, .cons hc h1, ?_⟩
        rw [h2]
        cases r <;> cases b0 <;> simp
      | throw => rw [hc] at h; cases h
      | ub => rw [hc] at h; cases h
    · rintro ⟨bs, h, rfl⟩
      cases h with
      | cons hc hs =>
        rename_i w1 b bs
        rw [hc, Res.bind_ok]
        refine (ih _ _ _ _).2 ⟨bs, hs, ?_⟩
        cases b <;> cases b0 <;> simp

/-- C39: the call of a set returns normally iff all its members do when run one after the other, each
exactly once and in order (whatever they return); the result is `true` iff all the results are. -/
theorem callback_set_call (cs : List (Cb W)) (w w' : W) (b : Bool) :
    callSet cs w = .ok (b, w') ↔ ∃ bs, Runs cs w bs w' ∧ (b = true ↔ ∀ r ∈ bs, r = true) := by
  rw [callSet, callLoop_ok]
  constructor
  · rintro ⟨bs, h, rfl⟩
    exact ⟨bs, h, by simp⟩
  · rintro ⟨bs, h, hb⟩
    refine ⟨bs, h, ?_⟩
    rw [Bool.true_and]
    cases b
    · symm
      rw [Bool.eq_false_iff]
      intro hc
      have h1 := hb.2 (by simpa using hc)
      cases h1
    · symm
      simpa using hb.1 rfl

/-- C39: an exception in a member leaves the call at once. -/
theorem callback_set_throws (cs : List (Cb W)) (w : W) : callSet cs w = .throw ↔ Throws cs w := by
  rw [callSet]
  generalize true = b0
  induction cs generalizing w b0 with
  | nil =>
    constructor
    · intro h; cases h
    · rintro ⟨pre, c, post, bs, w', h, -⟩
      cases pre <;> simp at h
  | cons c cs ih =>
    rw [callLoop]
    constructor
    · intro h
      cases hc : c.call w with
      | ok p =>
        obtain ⟨r, w1⟩ := p
        rw [hc, Res.bind_ok] at h
        obtain ⟨pre, d, post, bs, w', rfl, h2, h3⟩ := (ih w1 _).1 h
        exact ⟨c :: pre, d, post, r :: bs, w', rfl, .cons hc h2, h3⟩
      | throw => exact ⟨[], c, cs, [], w, rfl, .nil _, hc⟩
      | ub => rw [hc] at h; cases h
    · rintro ⟨pre, d, post, bs, w', h1, h2, h3⟩
      cases pre with
      | nil =>
        cases h2
        simp only [List.nil_append, List.cons.injEq] at h1
        rw [h1.1, h3]
        rfl
      | cons e pre =>
        simp only [List.cons_append, List.cons.injEq] at h1
        obtain ⟨rfl, rfl⟩ := h1
        cases h2 with
        | cons hc hs =>
          rw [hc, Res.bind_ok]
          exact (ih _ _).2 ⟨pre, d, post, _, w', rfl, hs, h3⟩

/-- C39: the construction is rejected iff one of the callbacks is empty; otherwise the set contains
the given callbacks in the given order. -/
theorem callback_set_ctor (l : List (Option (Cb W))) :
    (mkSet l = .throw ↔ none ∈ l) ∧ ∀ cs, mkSet l = .ok cs ↔ l = cs.map some := by
  induction l with
  | nil =>
    refine ⟨by simp [mkSet], fun cs => ?_⟩
    cases cs <;> simp [mkSet]
  | cons c l ih =>
    cases c with
    | none =>
      refine ⟨by simp [mkSet], fun cs => ?_⟩
      cases cs <;> simp [mkSet]
    | some c =>
      obtain ⟨ih1, ih2⟩ := ih
      rw [mkSet]
      cases hm : mkSet l with
      | ok cs' =>
        have h1 := (ih2 cs').1 hm
        subst h1
        refine ⟨by simp, fun cs => ?_⟩
        rw [Res.bind_ok]
        constructor
        · intro h
          cases h
          rfl
        · intro h
          cases cs with
          | nil => simp at h
          | cons d cs =>
            simp only [List.map_cons, List.cons.injEq, Option.some.injEq] at h
            obtain ⟨rfl, h⟩ := h
            have : cs' = cs := List.map_injective_iff.2 (Option.some_injective _) h
            rw [this]
      | throw =>
        refine ⟨by simp [ih1.1 hm], fun cs => ?_⟩
        constructor
        · intro h; cases h
        · intro h
          have : none ∈ some c :: l := List.mem_cons_of_mem _ (ih1.1 hm)
          rw [h] at this
          simp at this
      | ub =>
        exfalso
        have key : ∀ l : List (Option (Cb W)), mkSet l ≠ .ub := by
          intro l
          induction l with
          | nil => simp [mkSet]
          | cons c l ihl =>
            cases c with
            | none => simp [mkSet]
            | some c =>
              rw [mkSet]
              cases h : mkSet l with
              | ok a => simp
              | throw => simp
              | ub => exact absurd h ihl
        exact key l hm

/-- C39: access by index. -/
theorem callback_set_at (cs : List (Cb W)) (i : Nat) :
    (cs.length ≤ i → setAt cs i = .throw) ∧ ∀ h : i < cs.length, setAt cs i = .ok cs[i] := by
  constructor
  · intro h
    rw [setAt, if_pos h]
  · intro h
    rw [setAt, if_neg (by omega), List.getElem?_eq_getElem h]

/-- C39: the hooks are run one after the other. -/
theorem callback_set_pre_hook (cs ds : List (Cb W)) (w : W) :
    preHookSet [] w = .ok w ∧
    preHookSet (cs ++ ds) w = (preHookSet cs w).bind (preHookSet ds) ∧
    ∀ c : Cb W, preHookSet [c] w = c.preHook w := by
  refine ⟨rfl, ?_, fun c => ?_⟩
  · induction cs generalizing w with
    | nil => rfl
    | cons c cs ih =>
      rw [List.cons_append, preHookSet, preHookSet]
      cases h : c.preHook w with
      | ok w1 => rw [Res.bind_ok, Res.bind_ok, ih]
      | throw => rfl
      | ub => rfl
  · rw [preHookSet]
    cases c.preHook w <;> rfl

/-- Three callbacks writing to a log; the second one asks to stop, the third one is run nevertheless. -/
example : callSet [⟨fun w => .ok (true, 1 :: w), fun w => .ok w⟩, ⟨fun w => .ok (false, 2 :: w), fun w => .ok w⟩,
    ⟨fun w => .ok (true, 3 :: w), fun w => .ok w⟩] ([] : List Nat) = .ok (false, [3, 2, 1]) := rfl

/-! ### C40 -/

section
variable {K : Type} [Field K] [LinearOrder K] [IsStrictOrderedRing K] [FloorRing K]

/-- The reduced angle is in `[0, tp)` and differs from the angle by a multiple of `tp`. -/
theorem reduce_spec {tp : K} (h : 0 < tp) (x : K) :
    0 ≤ reduce tp x ∧ reduce tp x < tp ∧ ∃ n : ℤ, reduce tp x = x - tp * n := by
  have h1 := Int.floor_le (x / tp)
  have h2 := Int.lt_floor_add_one (x / tp)
  rw [le_div_iff₀ h] at h1
  rw [div_lt_iff₀ h] at h2
  refine ⟨?_, ?_, ⌊x / tp⌋, rfl⟩ <;> unfold reduce <;> nlinarith

theorem reduceLoop_ok (tp : K) (ks : List Nat) : ∀ s : List K, (∀ k ∈ ks, k < s.length) → ks.Nodup →
    ∃ s', reduceLoop tp ks s = .ok s' ∧ s'.length = s.length ∧
      ∀ k : Nat, s'[k]? = if k ∈ ks then (s[k]?).map (reduce tp) else s[k]? := by
  induction ks with
  | nil => exact fun s _ _ => ⟨s, rfl, rfl, fun k => by simp⟩
  | cons k ks ih =>
    intro s hk hn
    have hlt := hk k List.mem_cons_self
    rw [List.nodup_cons] at hn
    have h1 : reduceAt tp s k = .ok (s.set k (reduce tp s[k])) := by
      rw [reduceAt, List.getElem?_eq_getElem hlt]
    obtain ⟨s', h2, h3, h4⟩ := ih (s.set k (reduce tp s[k]))
      (fun j hj => by rw [List.length_set]; exact hk j (List.mem_cons_of_mem _ hj)) hn.2
    refine ⟨s', ?_, by rw [h3, List.length_set], fun j => ?_⟩
    · rw [reduceLoop, h1, Res.bind_ok, h2]
    · rw [h4]
      by_cases hjk : j = k
      · subst hjk
        rw [if_neg hn.1, if_pos List.mem_cons_self]
        simp [hlt]
      · rw [List.getElem?_set_ne (fun h => hjk h.symm)]
        by_cases hj : j ∈ ks
        · rw [if_pos hj, if_pos (List.mem_cons_of_mem _ hj)]
        · rw [if_neg hj, if_neg (by simp [hjk, hj])]

theorem mem_selectFrom (vars : List String) (lhs : List String) : ∀ i k : Nat,
    k ∈ selectFrom vars i lhs ↔ ∃ s, i ≤ k ∧ lhs[k - i]? = some s ∧ s ∈ vars := by
  induction lhs with
  | nil => intro i k; simp [selectFrom]
  | cons t l ih =>
    intro i k
    have hstep : (∃ s, i + 1 ≤ k ∧ l[k - (i + 1)]? = some s ∧ s ∈ vars) ↔
        ∃ s, i + 1 ≤ k ∧ (t :: l)[k - i]? = some s ∧ s ∈ vars := by
      constructor
      · rintro ⟨s, h1, h2, h3⟩
        exact ⟨s, h1, by rw [show k - i = (k - (i + 1)) + 1 from by omega, List.getElem?_cons_succ]; exact h2, h3⟩
      · rintro ⟨s, h1, h2, h3⟩
        rw [show k - i = (k - (i + 1)) + 1 from by omega, List.getElem?_cons_succ] at h2
        exact ⟨s, h1, h2, h3⟩
    have hsplit : (∃ s, i ≤ k ∧ (t :: l)[k - i]? = some s ∧ s ∈ vars) ↔
        (k = i ∧ t ∈ vars) ∨ ∃ s, i + 1 ≤ k ∧ (t :: l)[k - i]? = some s ∧ s ∈ vars := by
      constructor
      · rintro ⟨s, h1, h2, h3⟩
        rcases Nat.eq_or_lt_of_le h1 with rfl | h1
        · rw [Nat.sub_self, List.getElem?_cons_zero] at h2
          cases h2
          exact .inl ⟨rfl, h3⟩
        · exact .inr ⟨s, h1, h2, h3⟩
      · rintro (⟨rfl, h⟩ | ⟨s, h1, h2, h3⟩)
        · exact ⟨t, le_refl _, by simp, h⟩
        · exact ⟨s, by omega, h2, h3⟩
    rw [hsplit, ← hstep, ← ih, selectFrom]
    by_cases ht : t ∈ vars
    · rw [if_pos (by simpa using ht)]
      simp [ht]
    · rw [if_neg (by simpa using ht)]
      simp [ht]

theorem selectFrom_sorted (vars : List String) (lhs : List String) (i : Nat) :
    (selectFrom vars i lhs).Pairwise (· < ·) := by
  induction lhs generalizing i with
  | nil => exact .nil
  | cons t l ih =>
    rw [selectFrom]
    split_ifs
    · refine List.pairwise_cons.2 ⟨fun k hk => ?_, ih _⟩
      obtain ⟨s, h, -⟩ := (mem_selectFrom vars l (i + 1) k).1 hk
      omega
    · exact ih _

theorem checkInd_ok {vars lhs : List String} : checkInd (selectFrom vars 0 lhs) lhs.length = .ok () := by
  unfold checkInd
  cases h : (selectFrom vars 0 lhs).getLast? with
  | none => rfl
  | some k =>
    obtain ⟨s, -, h2, -⟩ := (mem_selectFrom vars lhs 0 k).1 (List.mem_of_getLast? h)
    have := (List.getElem?_eq_some_iff.1 h2).1
    exact if_neg (by omega)

/-- C40, batch mode: after `pre_hook()`, a call reduces exactly the selected state variables, in all the
lanes. `lhs` are the state variables of the integrator; `tp` stands for `2 pi`. -/
theorem angle_reducer_batch {tp : K} (htp : 0 < tp) (vars : List String) (stale : List Nat)
    (lhs : List String) (batch : Nat) (s : List K) (hs : s.length = lhs.length * batch) :
    ∃ r s', preHook (some ⟨vars, stale⟩) lhs = .ok r ∧
      callBatch tp lhs.length batch (some r) s = .ok (true, s') ∧ s'.length = s.length ∧
      ∀ (i l : Nat) (hi : i < lhs.length) (hl : l < batch), ∃ x y, s[i * batch + l]? = some x ∧
        s'[i * batch + l]? = some y ∧
        (lhs[i] ∈ vars → 0 ≤ y ∧ y < tp ∧ ∃ n : ℤ, y = x - tp * n) ∧ (lhs[i] ∉ vars → y = x) := by
  have hb : ∀ i l : Nat, i < lhs.length → l < batch → i * batch + l < lhs.length * batch := by
    intro i l hi hl
    have := Nat.mul_le_mul_right batch (show i + 1 ≤ lhs.length from hi)
    rw [Nat.add_mul, Nat.one_mul] at this
    omega
  have hinj : ∀ i l i' l' : Nat, l < batch → l' < batch → i * batch + l = i' * batch + l' → i = i' := by
    intro i l i' l' hl hl' h
    have hpos : 0 < batch := by omega
    have h1 : (i * batch + l) / batch = i := by
      rw [Nat.mul_comm, Nat.mul_add_div hpos, Nat.div_eq_of_lt hl, Nat.add_zero]
    have h2 : (i' * batch + l') / batch = i' := by
      rw [Nat.mul_comm, Nat.mul_add_div hpos, Nat.div_eq_of_lt hl', Nat.add_zero]
    rw [← h1, ← h2, h]
  have hmem : ∀ k : Nat, k ∈ ((selectFrom vars 0 lhs).flatMap fun ind =>
      (List.range batch).map (ind * batch + ·)) ↔
      ∃ i l, l < batch ∧ i ∈ selectFrom vars 0 lhs ∧ k = i * batch + l := by
    intro k
    rw [List.mem_flatMap]
    constructor
    · rintro ⟨i, hi, hk⟩
      obtain ⟨l, hl, rfl⟩ := List.mem_map.1 hk
      exact ⟨i, l, List.mem_range.1 hl, hi, rfl⟩
    · rintro ⟨i, l, hl, hi, rfl⟩
      exact ⟨i, hi, List.mem_map.2 ⟨l, List.mem_range.2 hl, rfl⟩⟩
  have hsel : ∀ i, i ∈ selectFrom vars 0 lhs ↔ ∃ h : i < lhs.length, lhs[i] ∈ vars := by
    intro i
    rw [mem_selectFrom]
    constructor
    · rintro ⟨t, -, h2, h3⟩
      obtain ⟨h4, h5⟩ := List.getElem?_eq_some_iff.1 h2
      refine ⟨h4, ?_⟩
      rw [← h5] at h3
      exact h3
    · rintro ⟨h, h2⟩
      exact ⟨_, Nat.zero_le _, List.getElem?_eq_getElem h, h2⟩
  obtain ⟨s', h1, h2, h3⟩ := reduceLoop_ok tp
    ((selectFrom vars 0 lhs).flatMap fun ind => (List.range batch).map (ind * batch + ·)) s
    (by
      intro k hk
      obtain ⟨i, l, hl, hi, rfl⟩ := (hmem k).1 hk
      obtain ⟨h4, -⟩ := (hsel i).1 hi
      rw [hs]
      exact hb i l h4 hl)
    (by
      rw [List.nodup_flatMap]
      refine ⟨fun i _ => List.Nodup.map (fun a b h => by simpa using h) List.nodup_range, ?_⟩
      refine (selectFrom_sorted vars lhs 0).imp fun {i j} hij => ?_
      intro k hk hk'
      obtain ⟨l, hl, rfl⟩ := List.mem_map.1 hk
      obtain ⟨l', hl', h⟩ := List.mem_map.1 hk'
      have := hinj j l' i l (List.mem_range.1 hl') (List.mem_range.1 hl) h
      omega)
  refine ⟨_, s', rfl, ?_, h2, ?_⟩
  · rw [callBatch]
    simp only [checkInd_ok, Res.bind_ok, h1]
  · intro i l hi hl
    have hlt := hb i l hi hl
    rw [← hs] at hlt
    refine ⟨s[i * batch + l], if lhs[i] ∈ vars then reduce tp s[i * batch + l] else s[i * batch + l],
      List.getElem?_eq_getElem hlt, ?_, fun h => ?_, fun h => by rw [if_neg h]⟩
    · rw [h3]
      by_cases hv : lhs[i] ∈ vars
      · rw [if_pos ((hmem _).2 ⟨i, l, hl, (hsel i).2 ⟨hi, hv⟩, rfl⟩), if_pos hv,
          List.getElem?_eq_getElem hlt]
        rfl
      · rw [if_neg, if_neg hv, List.getElem?_eq_getElem hlt]
        intro hc
        obtain ⟨i', l', hl', hi', he⟩ := (hmem _).1 hc
        have := hinj i l i' l' hl hl' he
        subst this
        exact hv ((hsel i).1 hi').2
    · rw [if_pos h]
      exact reduce_spec htp _

/-- C40: scalar mode is batch mode with one lane. -/
theorem angle_reducer_scalar_eq (tp : K) (n : Nat) (r : Option Reducer) (s : List K) :
    callScalar tp n r s = callBatch tp n 1 r s := by
  cases r with
  | none => rfl
  | some r =>
    rw [callScalar, callBatch]
    have : (r.ind.flatMap fun ind => (List.range 1).map (ind * 1 + ·)) = r.ind := by
      simp
    rw [this]

/-- C40: reducing again changes nothing. -/
theorem angle_reducer_idempotent {tp : K} (htp : 0 < tp) (x : K) : reduce tp (reduce tp x) = reduce tp x := by
  obtain ⟨h1, h2, -⟩ := reduce_spec htp x
  have : ⌊reduce tp x / tp⌋ = 0 := by
    rw [Int.floor_eq_zero_iff]
    exact ⟨div_nonneg h1 htp.le, (div_lt_one htp).2 h2⟩
  conv_lhs => rw [reduce, this]
  simp

/-- C40, the errors: a default-constructed object cannot be used; an object whose indices (left from
another integrator) do not fit is rejected. -/
theorem angle_reducer_errors (tp : K) (n batch : Nat) (s : List K) :
    callScalar tp n none s = .throw ∧ callBatch tp n batch none s = .throw ∧
    (∀ lhs, preHook none lhs = .throw) ∧
    ∀ (vars : List String) (ind : List Nat) (k : Nat), n ≤ k →
      callScalar tp n (some ⟨vars, ind ++ [k]⟩) s = .throw ∧
      callBatch tp n batch (some ⟨vars, ind ++ [k]⟩) s = .throw := by
  refine ⟨rfl, rfl, fun _ => rfl, fun vars ind k hk => ?_⟩
  have h : checkInd (ind ++ [k]) n = .throw := by
    rw [checkInd, List.getLast?_concat]
    exact if_pos hk
  simp [callScalar, callBatch, h]

end

/-- C40: the constructor accepts exactly the non-empty lists of variables. -/
theorem angle_reducer_ctor (args : List VarArg) :
    (∃ r, mkReducer args = .ok r ∧ args = r.vars.map some) ∨
      (mkReducer args = .throw ∧ (args = [] ∨ none ∈ args)) := by
  have key : ∀ args : List VarArg, (∃ l, argNames args = some l ∧ args = l.map some) ∨
      (argNames args = none ∧ none ∈ args) := by
    intro args
    induction args with
    | nil => exact .inl ⟨[], rfl, rfl⟩
    | cons a l ih =>
      cases a with
      | none => exact .inr ⟨rfl, List.mem_cons_self⟩
      | some s =>
        rcases ih with ⟨l', h1, h2⟩ | ⟨h1, h2⟩
        · exact .inl ⟨s :: l', by simp [argNames, h1], by simp [h2]⟩
        · exact .inr ⟨by simp [argNames, h1], List.mem_cons_of_mem _ h2⟩
  unfold mkReducer
  cases args with
  | nil => exact .inr ⟨rfl, .inl rfl⟩
  | cons a l =>
    rw [if_neg (by simp)]
    rcases key (a :: l) with ⟨l', h1, h2⟩ | ⟨h1, h2⟩
    · rw [h1]; exact .inl ⟨_, rfl, h2⟩
    · rw [h1]; exact .inr ⟨rfl, .inr h2⟩

/-- The hypothesis is met by the constant used in the code. -/
example : (0 : ℝ) < 2 * Real.pi := by positivity

/-- The second of three variables is reduced (with `tp = 6`), in both lanes. -/
example : (preHook (some ⟨["y", "w"], [9]⟩) ["x", "y", "z"]).bind (fun r =>
    callBatch (6 : ℚ) 3 2 (some r) [7, 8, 13, -1, 20, 21]) = .ok (true, [7, 8, 1, 5, 20, 21]) := by
  decide +kernel

end Heyoka.Callback
