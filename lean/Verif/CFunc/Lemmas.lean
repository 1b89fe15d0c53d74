import Verif.CFunc.Model
import Verif.Decomp.Params
import Mathlib.Data.List.Perm.Basic

/-!
# Lemmas on compiled functions
-/

set_option linter.unusedSectionVars false

namespace Heyoka.Sym

variable {K : Type}

/-! ### Vectors -/

/-- The vector has `b` lanes, with the values `x`. -/
def IsVec (b : Nat) (vec : List (Option K)) (x : Nat → Option K) : Prop :=
  vec.length = b ∧ ∀ l, l < b → vec[l]? = some (x l)

theorem IsVec.eq_map {b : Nat} {vec : List (Option K)} {x : Nat → Option K} (h : IsVec b vec x) :
    vec = (List.range b).map x := by
  refine List.ext_getElem? fun l => ?_
  rcases Nat.lt_or_ge l b with hl | hl
  · rw [h.2 l hl]; simp [hl]
  · rw [List.getElem?_eq_none (by rw [h.1]; exact hl), List.getElem?_eq_none (by simpa using hl)]

theorem IsVec.of_map {b : Nat} (x : Nat → Option K) : IsVec b ((List.range b).map x) x :=
  ⟨by simp, fun l hl => by simp [hl]⟩

theorem isVec_replicate {b : Nat} (x : Option K) : IsVec b (List.replicate b x) fun _ => x :=
  ⟨by simp, fun l hl => by simp [hl]⟩

theorem loadVec_ok {p : Ptr K} (n : Nat) : ∀ (off : Nat) (x : Nat → K),
    (∀ l, l < n → p.load (off + l) = .ok (x l)) →
    ∃ vec, loadVec p off n = .ok vec ∧ IsVec n vec fun l => some (x l) := by
  induction n with
  | zero => exact fun off x _ => ⟨[], rfl, rfl, fun l hl => absurd hl (by omega)⟩
  | succ n ih =>
    intro off x h
    obtain ⟨vec, h1, h2⟩ := ih (off + 1) (fun l => x (l + 1)) fun l hl => by
      have := h (l + 1) (by omega)
      rwa [show off + 1 + l = off + (l + 1) by omega]
    refine ⟨some (x 0) :: vec, ?_, ?_, ?_⟩
    · have h0 : p.load off = .ok (x 0) := h 0 (by omega)
      rw [loadVec, h0]
      simp only [Res.bind_ok]
      rw [h1]
      rfl
    · simp [h2.1]
    · intro l hl
      cases l with
      | zero => rfl
      | succ l => rw [List.getElem?_cons_succ]; exact h2.2 l (by omega)

/-- The vectors `V` have `b` lanes, the `l`-th of which are `A l`. -/
def Lanes (b : Nat) (V : List (List (Option K))) (A : Nat → List (Option K)) : Prop :=
  (∀ vec ∈ V, vec.length = b) ∧ ∀ l, l < b → A l = laneOf l V

theorem Lanes.snoc {b : Nat} {V : List (List (Option K))} {A : Nat → List (Option K)}
    (h : Lanes b V A) {vec : List (Option K)} {x : Nat → Option K} (hx : IsVec b vec x) :
    Lanes b (V ++ [vec]) fun l => A l ++ [x l] := by
  refine ⟨fun v hv => ?_, fun l hl => ?_⟩
  · rcases List.mem_append.1 hv with hv | hv
    · exact h.1 v hv
    · rw [List.mem_singleton] at hv; subst hv; exact hx.1
  · simp only
    rw [laneOf, List.map_append, h.2 l hl, laneOf, List.map_singleton, hx.2 l hl]
    rfl

theorem Lanes.get {b : Nat} {V : List (List (Option K))} {A : Nat → List (Option K)}
    (h : Lanes b V A) {i : Nat} {vec : List (Option K)} (hi : V[i]? = some vec) :
    IsVec b vec fun l => ((A l)[i]?).join := by
  have hlen := h.1 vec (List.mem_of_getElem? hi)
  refine ⟨hlen, fun l hl => ?_⟩
  simp only
  rw [h.2 l hl, laneOf, List.getElem?_map, hi]
  have : l < vec.length := by omega
  simp [List.getElem?_eq_getElem this]

theorem Lanes.get_iff {b : Nat} {V : List (List (Option K))} {A : Nat → List (Option K)}
    (h : Lanes b V A) {l : Nat} (hl : l < b) (i : Nat) {x : Option K} (hx : (A l)[i]? = some x) :
    ∃ vec, V[i]? = some vec := by
  rw [h.2 l hl, laneOf, List.getElem?_map, Option.map_eq_some_iff] at hx
  obtain ⟨vec, h1, -⟩ := hx
  exact ⟨vec, h1⟩

section
variable [Field K] [LinearOrder K] [Interp K]
variable {b stride : Nat} {parp timep : Ptr K} {vs : Nat → Env K} {R : Nat → Prop}

/-- The parameters allowed by `R` can be loaded and have the values in the environments of the lanes. -/
def ParsOk (b stride : Nat) (parp : Ptr K) (vs : Nat → Env K) (R : Nat → Prop) : Prop :=
  ∀ i, R i → ∀ l, l < b → parp.load (stride * i + l) = .ok ((vs l).par i)

theorem varg_ok (hb : 0 < b) (hp : ParsOk b stride parp vs R) {V : List (List (Option K))}
    {A : Nat → List (Option K)} (hA : Lanes b V A) {a : Expr K} (ha : ParsIn R a)
    {x : Nat → Option K} (hx : ∀ l, l < b → argEval (vs l) (A l) a = .ok (x l)) :
    ∃ vec, vargEval b stride parp V a = .ok vec ∧ IsVec b vec x := by
  cases a with
  | num n =>
    refine ⟨_, rfl, by simp, fun l hl => ?_⟩
    have := hx l hl
    rw [argEval] at this
    injection this with this
    rw [← this]
    simp [hl]
  | par i =>
    obtain ⟨vec, h1, h2⟩ := loadVec_ok b (stride * i) (fun l => (vs l).par i) (hp i ha)
    refine ⟨vec, h1, h2.1, fun l hl => ?_⟩
    have := hx l hl
    rw [argEval] at this
    injection this with this
    rw [← this]
    exact h2.2 l hl
  | fn f as => have := hx 0 hb; simp [argEval] at this
  | var s =>
    rw [vargEval]
    have h0 := hx 0 hb
    rw [argEval] at h0
    cases hu : unameToIndex s with
    | throw => rw [hu] at h0; simp at h0
    | ub => rw [hu] at h0; simp at h0
    | ok i =>
      rw [hu] at h0
      simp only [Res.bind_ok] at h0 ⊢
      cases hi : (A 0)[i]? with
      | none => rw [hi] at h0; simp at h0
      | some y =>
        obtain ⟨vec, hv⟩ := hA.get_iff hb i hi
        refine ⟨vec, by rw [hv], (hA.get hv).1, fun l hl => ?_⟩
        rw [(hA.get hv).2 l hl]
        have h1 := hx l hl
        rw [argEval, hu] at h1
        simp only [Res.bind_ok] at h1
        cases hi' : (A l)[i]? with
        | none => rw [hi'] at h1; simp at h1
        | some y' =>
          rw [hi'] at h1
          injection h1 with h1
          simp only [hi', h1, Option.join_some]

theorem vargs_ok (hb : 0 < b) (hp : ParsOk b stride parp vs R) {V : List (List (Option K))}
    {A : Nat → List (Option K)} (hA : Lanes b V A) (as : List (Expr K)) : (∀ a ∈ as, ParsIn R a) →
    ∀ (X : Nat → List (Option K)), (∀ l, l < b → argsEval (vs l) (A l) as = .ok (X l)) →
    ∃ V', vargsEval b stride parp V as = .ok V' ∧ Lanes b V' X := by
  induction as with
  | nil =>
    intro _ X hX
    refine ⟨[], rfl, by simp, fun l hl => ?_⟩
    have := hX l hl
    rw [argsEval] at this
    injection this with this
    rw [← this]
    rfl
  | cons a as ih =>
    intro ha X hX
    have hsplit : ∀ l, l < b → ∃ x xs, argEval (vs l) (A l) a = .ok x ∧
        argsEval (vs l) (A l) as = .ok xs ∧ X l = x :: xs := by
      intro l hl
      have := hX l hl
      rw [argsEval] at this
      cases h1 : argEval (vs l) (A l) a with
      | throw => rw [h1] at this; simp at this
      | ub => rw [h1] at this; simp at this
      | ok x =>
        cases h2 : argsEval (vs l) (A l) as with
        | throw => rw [h1, h2] at this; simp at this
        | ub => rw [h1, h2] at this; simp at this
        | ok xs =>
          rw [h1, h2] at this
          simp only [Res.bind_ok] at this
          injection this with this
          exact ⟨x, xs, rfl, rfl, this.symm⟩
    obtain ⟨vec, h1, h2⟩ := varg_ok (x := fun l => ((X l).head?).join) hb hp hA (ha a List.mem_cons_self)
      (fun l hl => by
        obtain ⟨x, xs, e1, e2, e3⟩ := hsplit l hl
        rw [e1, e3]; rfl)
    obtain ⟨V', h3, h4⟩ := ih (fun x hx => ha x (List.mem_cons_of_mem _ hx)) (fun l => (X l).tail)
      (fun l hl => by
        obtain ⟨x, xs, e1, e2, e3⟩ := hsplit l hl
        rw [e2, e3]; rfl)
    refine ⟨vec :: V', by rw [vargsEval, h1]; simp [h3], fun v hv => ?_, fun l hl => ?_⟩
    · rcases List.mem_cons.1 hv with rfl | hv
      · exact h2.1
      · exact h4.1 v hv
    · obtain ⟨x, xs, e1, e2, e3⟩ := hsplit l hl
      have h5 := h2.2 l hl
      have h6 := h4.2 l hl
      simp only [e3, List.head?_cons, Option.join_some] at h5 h6
      rw [e3, laneOf, List.map_cons, h5]
      simp only [List.tail_cons] at h6
      rw [h6]
      rfl

theorem appO_ne (v : Env K) (f : Fn K) (xs : List (Option K)) (h : f ≠ .time ∨ xs ≠ []) :
    appO v f xs = (allSome xs).bind (Interp.app f) := by
  unfold appO
  split
  · rcases h with h | h <;> exact absurd rfl h
  · rfl

/-- The time can be loaded if it is needed. -/
def TimeOk (b : Nat) (timep : Ptr K) (vs : Nat → Env K) (T : Prop) : Prop :=
  T → ∀ l, l < b → timep.load l = .ok ((vs l).time)

/-- The element uses the time only if `T` holds. -/
def TimeIn (T : Prop) : Expr K → Prop
  | .fn .time _ => T
  | _ => True

theorem velem_ok {T : Prop} (hb : 0 < b) (hp : ParsOk b stride parp vs R) (ht : TimeOk b timep vs T)
    {V : List (List (Option K))} {A : Nat → List (Option K)} (hA : Lanes b V A) {e : Expr K}
    (he : ParsIn R e) (hte : TimeIn T e) {x : Nat → Option K}
    (hx : ∀ l, l < b → elemEval (vs l) (A l) e = .ok (x l)) :
    ∃ vec, velemEval b stride parp timep V e = .ok vec ∧ IsVec b vec x := by
  cases e with
  | fn f args =>
    by_cases hc : f = .time ∧ args = []
    · obtain ⟨rfl, rfl⟩ := hc
      obtain ⟨vec, h1, h2⟩ := loadVec_ok b 0 (fun l => (vs l).time) (p := timep)
        (fun l hl => by rw [Nat.zero_add]; exact ht hte l hl)
      refine ⟨vec, h1, h2.1, fun l hl => ?_⟩
      have := hx l hl
      simp only [elemEval, argsEval, Res.bind_ok, appO] at this
      injection this with this
      rw [← this]
      exact h2.2 l hl
    · have h5 : f ≠ .time ∨ args ≠ [] := by
        by_cases hft : f = .time
        · exact .inr fun hx => hc ⟨hft, hx⟩
        · exact .inl hft
      have hve : velemEval b stride parp timep V (.fn f args) =
          (vargsEval b stride parp V args).bind fun xs => .ok (vecApp b f xs) := by
        unfold velemEval
        split
        · rename_i heq
          cases heq
          rcases h5 with h5 | h5 <;> exact (h5 rfl).elim
        · rename_i heq
          cases heq
          rfl
        · rename_i hno
          exact absurd rfl (hno _ _)
      have hargs : ∀ l, l < b → ∃ xs, argsEval (vs l) (A l) args = .ok xs ∧ x l = appO (vs l) f xs := by
        intro l hl
        have := hx l hl
        rw [elemEval] at this
        cases h1 : argsEval (vs l) (A l) args with
        | throw => rw [h1] at this; simp at this
        | ub => rw [h1] at this; simp at this
        | ok xs =>
          rw [h1] at this
          simp only [Res.bind_ok] at this
          injection this with this
          exact ⟨xs, rfl, this.symm⟩
      let X : Nat → List (Option K) := fun l => match argsEval (vs l) (A l) args with
        | .ok xs => xs
        | _ => []
      have hX : ∀ l, l < b → argsEval (vs l) (A l) args = .ok (X l) := by
        intro l hl
        obtain ⟨xs, h1, -⟩ := hargs l hl
        simp only [X, h1]
      obtain ⟨V', h1, h2⟩ := vargs_ok hb hp hA args (parsIn_fn.1 he) X hX
      refine ⟨vecApp b f V', by rw [hve, h1]; rfl, by simp [vecApp], fun l hl => ?_⟩
      obtain ⟨xs, h3, h4⟩ := hargs l hl
      have h6 : X l = xs := by
        have := hX l hl
        rw [h3] at this
        injection this with this
        exact this.symm
      have h7 : f ≠ .time ∨ xs ≠ [] := by
        refine h5.imp id fun hne hx0 => ?_
        subst hx0
        cases args with
        | nil => exact hne rfl
        | cons a as =>
          rw [argsEval] at h3
          cases h8 : argEval (vs l) (A l) a with
          | throw => rw [h8] at h3; simp at h3
          | ub => rw [h8] at h3; simp at h3
          | ok y =>
            rw [h8] at h3
            simp only [Res.bind_ok] at h3
            cases h9 : argsEval (vs l) (A l) as with
            | throw => rw [h9] at h3; simp at h3
            | ub => rw [h9] at h3; simp at h3
            | ok ys => rw [h9] at h3; simp at h3
      rw [h4, appO_ne _ _ _ h7, ← h6, h2.2 l hl, vecApp]
      simp [hl]
  | _ => have := hx 0 hb; simp [elemEval] at this

theorem vrun_ok {T : Prop} (hb : 0 < b) (hp : ParsOk b stride parp vs R) (ht : TimeOk b timep vs T)
    (es : List (Expr K)) : (∀ e ∈ es, ParsIn R e ∧ TimeIn T e) →
    ∀ (V : List (List (Option K))) (A B : Nat → List (Option K)), Lanes b V A →
      (∀ l, l < b → runElems (vs l) (A l) es = .ok (B l)) →
    ∃ V', vrunElems b stride parp timep V es = .ok V' ∧ Lanes b V' B := by
  induction es with
  | nil =>
    intro _ V A B hA hB
    refine ⟨V, rfl, hA.1, fun l hl => ?_⟩
    have := hB l hl
    rw [runElems] at this
    injection this with this
    rw [← this]
    exact hA.2 l hl
  | cons e es ih =>
    intro hes V A B hA hB
    have hsplit : ∀ l, l < b → ∃ x, elemEval (vs l) (A l) e = .ok x ∧
        runElems (vs l) (A l ++ [x]) es = .ok (B l) := by
      intro l hl
      have := hB l hl
      rw [runElems] at this
      cases h1 : elemEval (vs l) (A l) e with
      | throw => rw [h1] at this; simp at this
      | ub => rw [h1] at this; simp at this
      | ok x => rw [h1] at this; exact ⟨x, rfl, this⟩
    let x : Nat → Option K := fun l => match elemEval (vs l) (A l) e with
      | .ok x => x
      | _ => none
    have hx : ∀ l, l < b → elemEval (vs l) (A l) e = .ok (x l) := by
      intro l hl
      obtain ⟨y, h1, -⟩ := hsplit l hl
      simp only [x, h1]
    obtain ⟨vec, h1, h2⟩ := velem_ok hb hp ht hA (hes e List.mem_cons_self).1 (hes e List.mem_cons_self).2 hx
    obtain ⟨V', h3, h4⟩ := ih (fun e' h => hes e' (List.mem_cons_of_mem _ h)) (V ++ [vec])
      (fun l => A l ++ [x l]) B (hA.snoc h2) (fun l hl => by
        obtain ⟨y, h5, h6⟩ := hsplit l hl
        have : x l = y := by
          have := hx l hl
          rw [h5] at this
          injection this with this
          exact this.symm
        rw [this]
        exact h6)
    exact ⟨V', by rw [vrunElems, h1]; exact h3, h4⟩

/-- The stores of the outputs: one vector for each, from the index `i`. -/
def outWrites (b stride o : Nat) : Nat → List (Nat → Option K) → List (Write K)
  | _, [] => []
  | i, x :: xs => ((List.range b).map fun l => (o + stride * i + l, x l)) ++ outWrites b stride o (i + 1) xs

theorem storeVec_eq {vec : List (Option K)} : ∀ {b : Nat} {x : Nat → Option K} (a : Nat), IsVec b vec x →
    storeVec a vec = (List.range b).map fun l => (a + l, x l) := by
  induction vec with
  | nil =>
    intro b x a h
    have : b = 0 := by have := h.1; simpa using this.symm
    subst this
    rfl
  | cons y ys ih =>
    intro b x a h
    cases b with
    | zero => have := h.1; simp at this
    | succ b =>
      have h0 := h.2 0 (by omega)
      rw [List.getElem?_cons_zero] at h0
      injection h0 with h0
      rw [storeVec, ih (b := b) (x := fun l => x (l + 1)) (a + 1) ⟨by have := h.1; simpa using this, fun l hl => by
        have := h.2 (l + 1) (by omega)
        rwa [List.getElem?_cons_succ] at this⟩, List.range_succ_eq_map, List.map_cons, List.map_map]
      congr 1
      · rw [h0, Nat.add_zero]
      · refine List.map_congr_left fun l _ => ?_
        simp only [Function.comp]
        rw [show a + 1 + l = a + (l + 1) by omega]

theorem vouts_ok {o : Nat} (hb : 0 < b) (hp : ParsOk b stride parp vs R) {V : List (List (Option K))}
    {A : Nat → List (Option K)} (hA : Lanes b V A) (es : List (Expr K)) : (∀ e ∈ es, ParsIn R e) →
    ∀ (i : Nat) (Y : Nat → List (Option K)), (∀ l, l < b → runOuts (vs l) (A l) es = .ok (Y l)) →
    vrunOuts b stride o parp V i es = .ok (outWrites b stride o i
      ((List.range es.length).map fun k l => ((Y l)[k]?).join)) := by
  induction es with
  | nil => intro _ i Y _; rfl
  | cons e es ih =>
    intro hes i Y hY
    have hrest : ∀ x : Nat → Option K, (∀ l, l < b → ∃ ys, runOuts (vs l) (A l) es = .ok ys ∧ Y l = x l :: ys) →
        vrunOuts b stride o parp V (i + 1) es = .ok (outWrites b stride o (i + 1)
          ((List.range es.length).map fun k l => ((Y l)[k + 1]?).join)) := by
      intro x hx
      have := ih (fun e' h => hes e' (List.mem_cons_of_mem _ h)) (i + 1) (fun l => (Y l).tail) fun l hl => by
        obtain ⟨ys, h1, h2⟩ := hx l hl
        rw [h1, h2]
        rfl
      rw [this]
      congr 3
      funext k l
      rw [List.getElem?_tail]
    have hfin : ∀ (x : Nat → Option K) (vec : List (Option K)), IsVec b vec x →
        (∀ l, l < b → ∃ ys, runOuts (vs l) (A l) es = .ok ys ∧ Y l = x l :: ys) →
        storeVec (o + stride * i) vec ++ outWrites b stride o (i + 1)
          ((List.range es.length).map fun k l => ((Y l)[k + 1]?).join) =
        outWrites b stride o i ((List.range (e :: es).length).map fun k l => ((Y l)[k]?).join) := by
      intro x vec hv hx
      rw [storeVec_eq _ hv, List.length_cons, List.range_succ_eq_map, List.map_cons, outWrites, List.map_map]
      congr 1
      refine List.map_congr_left fun l hl => ?_
      obtain ⟨ys, -, h2⟩ := hx l (List.mem_range.1 hl)
      rw [h2]
      rfl
    have he := hes e List.mem_cons_self
    cases e with
    | num n =>
      have hx : ∀ l, l < b → ∃ ys, runOuts (vs l) (A l) es = .ok ys ∧ Y l = n.toK? :: ys := by
        intro l hl
        have := hY l hl
        rw [runOuts] at this
        cases h1 : runOuts (vs l) (A l) es with
        | throw => rw [h1] at this; simp at this
        | ub => rw [h1] at this; simp at this
        | ok ys => rw [h1] at this; simp only [Res.bind_ok] at this; injection this with this; exact ⟨ys, rfl, this.symm⟩
      rw [vrunOuts, hrest _ hx, Res.bind_ok, hfin _ _ (isVec_replicate _) hx]
    | par j =>
      have hx : ∀ l, l < b → ∃ ys, runOuts (vs l) (A l) es = .ok ys ∧ Y l = some ((vs l).par j) :: ys := by
        intro l hl
        have := hY l hl
        rw [runOuts] at this
        cases h1 : runOuts (vs l) (A l) es with
        | throw => rw [h1] at this; simp at this
        | ub => rw [h1] at this; simp at this
        | ok ys => rw [h1] at this; simp only [Res.bind_ok] at this; injection this with this; exact ⟨ys, rfl, this.symm⟩
      obtain ⟨vec, h1, h2⟩ := loadVec_ok b (stride * j) (fun l => (vs l).par j) (hp j he)
      rw [vrunOuts, h1, Res.bind_ok, hrest _ hx, Res.bind_ok, hfin _ _ h2 hx]
    | fn f as => have := hY 0 hb; simp [runOuts] at this
    | var s =>
      have hx : ∃ j vec, unameToIndex s = .ok j ∧ V[j]? = some vec ∧ ∀ l, l < b →
          ∃ ys, runOuts (vs l) (A l) es = .ok ys ∧ Y l = ((A l)[j]?).join :: ys := by
        have hone : ∀ l, l < b → ∃ j y ys, unameToIndex s = .ok j ∧ (A l)[j]? = some y ∧
            runOuts (vs l) (A l) es = .ok ys ∧ Y l = y :: ys := by
          intro l hl
          have := hY l hl
          rw [runOuts] at this
          cases hu : unameToIndex s with
          | throw => rw [hu] at this; simp at this
          | ub => rw [hu] at this; simp at this
          | ok j =>
            rw [hu] at this
            simp only [Res.bind_ok] at this
            cases hj : (A l)[j]? with
            | none => rw [hj] at this; simp at this
            | some y =>
              rw [hj] at this
              simp only at this
              cases h1 : runOuts (vs l) (A l) es with
              | throw => rw [h1] at this; simp at this
              | ub => rw [h1] at this; simp at this
              | ok ys => rw [h1] at this; simp only [Res.bind_ok] at this; injection this with this; exact ⟨j, y, ys, rfl, hj, rfl, this.symm⟩
        obtain ⟨j, y, ys, h1, h2, h3, h4⟩ := hone 0 hb
        obtain ⟨vec, hv⟩ := hA.get_iff hb j h2
        refine ⟨j, vec, h1, hv, fun l hl => ?_⟩
        obtain ⟨j', y', ys', h1', h2', h3', h4'⟩ := hone l hl
        rw [h1] at h1'
        injection h1' with h1'
        subst h1'
        exact ⟨ys', h3', by rw [h4', h2']; rfl⟩
      obtain ⟨j, vec, h1, h2, h3⟩ := hx
      rw [vrunOuts, h1, Res.bind_ok, h2]
      simp only
      rw [hrest _ h3, Res.bind_ok, hfin _ _ (hA.get h2) h3]

theorem loadIns_ok {inp : Ptr K} (n : Nat) : ∀ (i : Nat) (x : Nat → Nat → K),
    (∀ j, j < n → ∀ l, l < b → inp.load (stride * (i + j) + l) = .ok (x j l)) →
    ∃ V, loadIns b stride inp i n = .ok V ∧ Lanes b V fun l => (List.range n).map fun j => some (x j l) := by
  induction n with
  | zero => exact fun i x _ => ⟨[], rfl, by simp, fun l hl => rfl⟩
  | succ n ih =>
    intro i x h
    obtain ⟨vec, h1, h2⟩ := loadVec_ok (p := inp) b (stride * i) (x 0) (h 0 (by omega))
    obtain ⟨V, h3, h4⟩ := ih (i + 1) (fun j => x (j + 1)) fun j hj l hl => by
      rw [show i + 1 + j = i + (j + 1) by omega]
      exact h (j + 1) (by omega) l hl
    refine ⟨vec :: V, by rw [loadIns, h1]; simp [h3], fun v hv => ?_, fun l hl => ?_⟩
    · rcases List.mem_cons.1 hv with rfl | hv
      · exact h2.1
      · exact h4.1 v hv
    · simp only
      rw [laneOf, List.map_cons, h2.2 l hl, List.range_succ_eq_map, List.map_cons, List.map_map]
      have := h4.2 l hl
      simp only [laneOf] at this
      rw [← this]
      rfl

/-- The generated function: if the loads succeed and each lane of the decomposition can be evaluated, the
stores are those of the values of the lanes. -/
theorem kernel_ok {T : Prop} {nvars nouts o : Nat} {dc : List (Expr K)} {inp : Ptr K}
    {x : Nat → Nat → K} {Y : Nat → List (Option K)} (hb : 0 < b) (hlen : nvars + nouts ≤ dc.length)
    (hi : ∀ j, j < nvars → ∀ l, l < b → inp.load (stride * j + l) = .ok (x j l))
    (hp : ParsOk b stride parp vs R) (ht : TimeOk b timep vs T)
    (hdc : ∀ e ∈ dc, ParsIn R e) (hte : ∀ e ∈ dcMid nvars nouts dc, TimeIn T e)
    (hY : ∀ l, l < b → evalDc (vs l) nvars nouts ((List.range nvars).map fun j => x j l) dc = .ok (Y l)) :
    kernel b stride nvars nouts dc o inp parp timep = .ok (outWrites b stride o 0
      ((List.range nouts).map fun k l => ((Y l)[k]?).join)) := by
  obtain ⟨V, h1, h2⟩ := loadIns_ok (inp := inp) (b := b) (stride := stride) nvars 0 x
    (fun j hj l hl => by rw [Nat.zero_add]; exact hi j hj l hl)
  let A : Nat → List (Option K) := fun l => (List.range nvars).map fun j => some (x j l)
  let B : Nat → List (Option K) := fun l => match runElems (vs l) (A l) (dcMid nvars nouts dc) with
    | .ok ys => ys
    | _ => []
  have hev : ∀ l, l < b → runElems (vs l) (A l) (dcMid nvars nouts dc) = .ok (B l) ∧
      runOuts (vs l) (B l) (dcOuts nouts dc) = .ok (Y l) := by
    intro l hl
    have := hY l hl
    rw [evalDc, if_neg (by simp; omega), List.map_map] at this
    have hA : (List.range nvars).map (some ∘ fun j => x j l) = A l := rfl
    rw [hA] at this
    cases h3 : runElems (vs l) (A l) (dcMid nvars nouts dc) with
    | throw => rw [h3] at this; simp at this
    | ub => rw [h3] at this; simp at this
    | ok ys =>
      rw [h3] at this
      simp only [Res.bind_ok] at this
      have hB : B l = ys := by simp only [B, h3]
      rw [hB]
      exact ⟨rfl, this⟩
  obtain ⟨V', h3, h4⟩ := vrun_ok hb hp ht (dcMid nvars nouts dc)
    (fun e he => ⟨hdc e (List.mem_of_mem_drop (List.mem_of_mem_take he)), hte e he⟩) V A B h2 fun l hl => (hev l hl).1
  have h5 := vouts_ok (o := o) hb hp h4 (dcOuts nouts dc)
    (fun e he => hdc e (List.mem_of_mem_drop he)) 0 Y fun l hl => (hev l hl).2
  have hl : (dcOuts nouts dc).length = nouts := by rw [dcOuts, List.length_drop]; omega
  rw [kernel, if_neg (by omega), h1, Res.bind_ok, h3, Res.bind_ok, h5, hl]

end

/-! ### Stores -/

theorem _root_.Heyoka.Interleave.perm {α : Type} {ts : List (List α)} {σ : List α} (h : Interleave ts σ) :
    σ.Perm ts.flatten := by
  induction h with
  | done h =>
    rename_i ts
    rw [show ts.flatten = [] from List.flatten_eq_nil_iff.2 h]
  | @step ts i w ws σ hi _ ih =>
    obtain ⟨hl, hi⟩ := List.getElem?_eq_some_iff.1 hi
    have h1 : ts = ts.take i ++ (w :: ws) :: ts.drop (i + 1) := by
      conv_lhs => rw [← List.take_append_drop i ts, List.drop_eq_getElem_cons hl, hi]
    have h2 : ts.set i ws = ts.take i ++ ws :: ts.drop (i + 1) := List.set_eq_take_append_cons_drop .. |>.trans (by rw [if_pos hl])
    rw [h2] at ih
    rw [h1]
    simp only [List.flatten_append, List.flatten_cons, List.cons_append] at ih ⊢
    refine (ih.cons w).trans ?_
    exact List.perm_middle.symm

/-- Stores to different addresses within the array: the cells get the values, the others are unchanged. -/
theorem applyW_ok (ws : List (Write K)) : ∀ out : List (Option K), (ws.map Prod.fst).Nodup →
    (∀ w ∈ ws, w.1 < out.length) → ∃ out', applyW out ws = .ok out' ∧ out'.length = out.length ∧
      (∀ w ∈ ws, out'[w.1]? = some w.2) ∧ ∀ a, (∀ w ∈ ws, w.1 ≠ a) → out'[a]? = out[a]? := by
  induction ws with
  | nil => intro out _ _; exact ⟨out, rfl, rfl, by simp, fun _ _ => rfl⟩
  | cons w ws ih =>
    intro out hn hb
    rw [List.map_cons, List.nodup_cons] at hn
    obtain ⟨out', h1, h2, h3, h4⟩ := ih (out.set w.1 w.2) hn.2
      (fun w' hw' => by rw [List.length_set]; exact hb w' (List.mem_cons_of_mem _ hw'))
    refine ⟨out', ?_, by rw [h2, List.length_set], fun w' hw' => ?_, fun a ha => ?_⟩
    · rw [applyW, if_pos (hb w List.mem_cons_self), h1]
    · rcases List.mem_cons.1 hw' with rfl | hw'
      · rw [h4 w'.1 fun w2 hw2 he => hn.1 (he ▸ List.mem_map_of_mem hw2)]
        exact List.getElem?_set_self (hb w' List.mem_cons_self)
      · exact h3 w' hw'
    · rw [h4 a fun w' hw' => ha w' (List.mem_cons_of_mem _ hw')]
      exact List.getElem?_set_ne (ha w List.mem_cons_self)

/-- The stores of the values `val i c` of the outputs in the columns `cols`. -/
def colWrites (nouts ncols : Nat) (val : Nat → Nat → Option K) (cols : List Nat) : List (Write K) :=
  (List.range nouts).flatMap fun i => cols.map fun c => (c + ncols * i, val i c)

theorem outWrites_eq {b stride o : Nat} (xs : List (Nat → Option K)) : ∀ i,
    outWrites b stride o i xs =
      xs.zipIdx.flatMap fun p => (List.range b).map fun l => (o + stride * (i + p.2) + l, p.1 l) := by
  induction xs with
  | nil => intro i; rfl
  | cons x xs ih =>
    intro i
    rw [outWrites, ih, List.zipIdx_cons', List.flatMap_cons, List.flatMap_map]
    congr 1
    refine List.flatMap_congr fun p _ => List.map_congr_left fun l _ => ?_
    simp only [Prod.map]
    rw [show i + 1 + p.2 = i + (p.2 + 1) by omega]
    rfl

theorem outWrites_colWrites {b stride o nouts : Nat} {Y : Nat → List (Option K)}
    {val : Nat → Nat → Option K} (h : ∀ l, l < b → ∀ i, i < nouts → ((Y l)[i]?).join = val i (o + l)) :
    outWrites b stride o 0 ((List.range nouts).map fun k l => ((Y l)[k]?).join) =
      colWrites nouts stride val ((List.range b).map (o + ·)) := by
  rw [outWrites_eq, colWrites, List.zipIdx_map, List.flatMap_map]
  have : (List.range nouts).zipIdx = (List.range nouts).map fun i => (i, i) := by
    refine List.ext_getElem? fun k => ?_
    rw [List.getElem?_zipIdx, List.getElem?_map]
    rcases Nat.lt_or_ge k nouts with hk | hk
    · simp [hk]
    · simp [List.getElem?_eq_none (show (List.range nouts).length ≤ k by simpa using hk)]
  rw [this, List.flatMap_map]
  refine List.flatMap_congr fun i hi => ?_
  rw [List.map_map]
  refine List.map_congr_left fun l hl => ?_
  simp only [Function.comp, Prod.map, id]
  rw [h l (List.mem_range.1 hl) i (List.mem_range.1 hi), Nat.zero_add]
  congr 1
  omega

theorem colWrites_append {nouts ncols : Nat} {val : Nat → Nat → Option K} (cs ds : List Nat) :
    (colWrites nouts ncols val cs ++ colWrites nouts ncols val ds).Perm
      (colWrites nouts ncols val (cs ++ ds)) := by
  simp only [colWrites, List.map_append]
  exact List.flatMap_append_perm _ _ _

theorem colWrites_flatten {nouts ncols : Nat} {val : Nat → Nat → Option K} (css : List (List Nat)) :
    (css.map (colWrites nouts ncols val)).flatten.Perm (colWrites nouts ncols val css.flatten) := by
  induction css with
  | nil => simp [colWrites]
  | cons cs css ih =>
    rw [List.map_cons, List.flatten_cons, List.flatten_cons]
    exact (List.Perm.append_left _ ih).trans (colWrites_append _ _)

theorem range_flatMap (n m : Nat) :
    ((List.range n).flatMap fun i => (List.range m).map fun c => c + m * i) = List.range (n * m) := by
  induction n with
  | zero => simp
  | succ n ih =>
    rw [List.range_succ, List.flatMap_append, ih, List.flatMap_singleton, Nat.succ_mul, List.range_add]
    congr 1
    refine List.map_congr_left fun c _ => ?_
    rw [Nat.mul_comm m n]
    omega

theorem colWrites_addr (nouts ncols : Nat) (val : Nat → Nat → Option K) :
    (colWrites nouts ncols val (List.range ncols)).map Prod.fst = List.range (nouts * ncols) := by
  rw [colWrites, List.map_flatMap, ← range_flatMap]
  refine List.flatMap_congr fun i _ => ?_
  rw [List.map_map]
  rfl

theorem range_mul_flatten (q b : Nat) :
    ((List.range q).map fun k => (List.range b).map (k * b + ·)).flatten = List.range (q * b) := by
  rw [← range_flatMap, List.flatMap]
  congr 1
  refine List.map_congr_left fun k _ => List.map_congr_left fun l _ => ?_
  rw [Nat.mul_comm b k]
  omega

/-- The SIMD blocks and the remaining columns are all the columns. -/
theorem columns_flatten {b : Nat} (n : Nat) (hb : 0 < b) :
    (((List.range (n / b)).map fun k => (List.range b).map (k * b + ·)) ++
      (remOffsets n b).map fun k => (List.range 1).map (k + ·)).flatten = List.range n := by
  rw [List.flatten_append, range_mul_flatten]
  have h1 : ((remOffsets n b).map fun k => (List.range 1).map (k + ·)).flatten = remOffsets n b := by
    have : (fun k => (List.range 1).map (k + ·)) = fun k : Nat => [k] := by
      funext k; simp
    rw [this]
    induction remOffsets n b with
    | nil => rfl
    | cons a l ih => rw [List.map_cons, List.flatten_cons, ih]; rfl
  rw [h1, remOffsets, ← List.range_add]
  congr 1
  have := Nat.div_mul_le_self n b
  omega

theorem resAll_map {α β : Type} {f : α → Res β} {g : α → β} (l : List α) (h : ∀ a ∈ l, f a = .ok (g a)) :
    resAll (l.map f) = .ok (l.map g) := by
  induction l with
  | nil => rfl
  | cons a l ih =>
    rw [List.map_cons, resAll, h a List.mem_cons_self, Res.bind_ok,
      ih fun x hx => h x (List.mem_cons_of_mem _ hx)]
    rfl

theorem resAll_append {α : Type} {l l' : List (Res α)} {r r' : List α} (h : resAll l = .ok r)
    (h' : resAll l' = .ok r') : resAll (l ++ l') = .ok (r ++ r') := by
  induction l generalizing r with
  | nil => simp only [resAll, Res.ok.injEq] at h; subst h; exact h'
  | cons a l ih =>
    rw [resAll] at h
    cases a with
    | throw => simp at h
    | ub => simp at h
    | ok x =>
      simp only [Res.bind_ok] at h
      cases h1 : resAll l with
      | throw => rw [h1] at h; simp at h
      | ub => rw [h1] at h; simp at h
      | ok xs =>
        rw [h1] at h
        simp only [Res.bind_ok, Res.ok.injEq] at h
        subst h
        rw [List.cons_append, resAll, Res.bind_ok, ih h1]
        rfl

end Heyoka.Sym
