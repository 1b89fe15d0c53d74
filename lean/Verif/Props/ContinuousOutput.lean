import Verif.Props.Dense

/-!
# Properties of the continuous output (C30)
-/

namespace Heyoka.Dense

open Finset Search

/-! ## Specification -/

/-- Step `i` covers the time `t`: `t` is between the beginning `times[i]` (included) and the end
`times[i + 1]` (excluded) of the step in the direction of integration; the first step extends
indefinitely before its beginning, the last step indefinitely after its end. -/
def Covers {K : Type*} [LinearOrder K] (fwd : Bool) (times : List K) (t : K) (i : Nat) : Prop :=
  i + 1 < times.length ∧
    (i = 0 ∨ ∃ x, times[i]? = some x ∧ if fwd then x ≤ t else t ≤ x) ∧
    (i + 2 = times.length ∨ ∃ y, times[i + 1]? = some y ∧ if fwd then t < y else y < t)

/-- The times are monotone in the direction of integration (repetitions are allowed: steps of
size zero). -/
def Monotone' {K : Type*} [LinearOrder K] (fwd : Bool) (times : List K) : Prop :=
  if fwd then times.Pairwise (· ≤ ·) else times.Pairwise (· ≥ ·)

/-- The object recorded by an integration started at `t0`: one entry of `hist` per step, with the
time at the end of the step and the Taylor coefficients. -/
def record {K : Type*} [CommRing K] [LinearOrder K] (t0 : K) (hist : List (K × List K)) : COut K :=
  hist.foldl (fun c s => cOutPush c s.1 s.2) ⟨[], [t0]⟩

section
variable {K : Type*} [CommRing K] [LinearOrder K]

theorem record_eq (t0 : K) (hist : List (K × List K)) :
    record t0 hist = ⟨(hist.map Prod.snd).flatten, t0 :: hist.map Prod.fst⟩ := by
  have : ∀ (hist : List (K × List K)) (c : COut K),
      hist.foldl (fun c s => cOutPush c s.1 s.2) c =
        ⟨c.tcs ++ (hist.map Prod.snd).flatten, c.times ++ hist.map Prod.fst⟩ := by
    intro hist
    induction hist with
    | nil => intro c; simp
    | cons s hist ih => intro c; rw [List.foldl_cons, ih]; simp [cOutPush]
  rw [record, this]
  simp

omit [CommRing K] in
/-- At most one step covers a time. -/
theorem covers_unique {fwd : Bool} {times : List K} (hm : Monotone' fwd times) {t : K} {i j : Nat}
    (hi : Covers fwd times t i) (hj : Covers fwd times t j) : i = j := by
  have aux : ∀ {i j : Nat}, i < j → Covers fwd times t i → Covers fwd times t j → False := by
    intro i j hij hi hj
    obtain ⟨h1, -, h3⟩ := hi
    obtain ⟨h1', h2', -⟩ := hj
    rcases h3 with h3 | ⟨y, hy, h3⟩
    · omega
    rcases h2' with h2' | ⟨x, hx, h2'⟩
    · omega
    obtain ⟨a, rfl⟩ := List.getElem?_eq_some_iff.1 hy
    obtain ⟨b, rfl⟩ := List.getElem?_eq_some_iff.1 hx
    cases fwd
    · simp only [Bool.false_eq_true, if_false, Monotone'] at hm h3 h2'
      rw [List.pairwise_iff_getElem] at hm
      have : times[i + 1] ≥ times[j] := by
        rcases Nat.lt_or_ge (i + 1) j with h | h
        · exact hm _ _ a b h
        · have : i + 1 = j := by omega
          subst this; exact le_rfl
      exact absurd (h3.trans_le (h2'.trans this)) (lt_irrefl _)
    · simp only [if_true, Monotone'] at hm h3 h2'
      rw [List.pairwise_iff_getElem] at hm
      have : times[i + 1] ≤ times[j] := by
        rcases Nat.lt_or_ge (i + 1) j with h | h
        · exact hm _ _ a b h
        · have : i + 1 = j := by omega
          subst this; exact le_rfl
      exact absurd (h3.trans_le (this.trans h2')) (lt_irrefl _)
  rcases Nat.lt_trichotomy i j with h | h | h
  · exact (aux h hi hj).elim
  · exact h
  · exact (aux h hj hi).elim

omit [CommRing K] in
theorem covers_of_part {dir : Bool} {times : List K} {t : K} {r : Nat} (h2 : 2 ≤ times.length)
    (hp : IsPart times (cOutCond dir t) r) : Covers dir times t (cOutIdx times.length r) := by
  obtain ⟨hr, hp⟩ := hp
  have key : ∀ i (h : i < times.length), (if dir then times[i] ≤ t else t ≤ times[i]) ↔ i < r := by
    intro i h
    rw [← hp i h]
    cases dir <;> simp [cOutCond]
  have key' : ∀ i (h : i < times.length), (if dir then t < times[i] else times[i] < t) ↔ r ≤ i := by
    intro i h
    rw [← not_lt, ← key i h]
    cases dir <;> simp
  unfold cOutIdx
  split
  · next h0 =>
    refine ⟨by omega, .inl rfl, .inr ⟨times[1], List.getElem?_eq_getElem _, ?_⟩⟩
    exact (key' 1 (by omega)).2 (by omega)
  · next h0 =>
    split
    · next h1 =>
      refine ⟨by omega, ?_, .inl (by omega)⟩
      exact .inr ⟨times[r - 2], List.getElem?_eq_getElem _, (key (r - 2) (by omega)).2 (by omega)⟩
    · next h1 =>
      refine ⟨by omega, .inr ⟨times[r - 1], List.getElem?_eq_getElem _,
        (key (r - 1) (by omega)).2 (by omega)⟩, .inr ⟨times[r - 1 + 1]'(by omega),
          List.getElem?_eq_getElem _, (key' _ (by omega)).2 (by omega)⟩⟩

omit [CommRing K] in
theorem isPart_cOut {dir : Bool} {times : List K} (hm : Monotone' dir times) (t : K) :
    IsPart times (cOutCond dir t) (times.countP (cOutCond dir t)) := by
  apply isPart_countP
  cases dir
  · simp only [Monotone', Bool.false_eq_true, if_false] at hm
    exact hm.imp fun {a b} hab hb => by
      simp only [cOutCond, Bool.false_eq_true, if_false, Bool.not_eq_eq_eq_not, Bool.not_true,
        decide_eq_false_iff_not, gt_iff_lt, not_lt] at hb ⊢
      exact hb.trans hab
  · simp only [Monotone', if_true] at hm
    exact hm.imp fun {a b} hab hb => by
      simp only [cOutCond, if_true, Bool.not_eq_eq_eq_not, Bool.not_true,
        decide_eq_false_iff_not, not_lt] at hb ⊢
      exact hab.trans hb

/-- **C30.** Calling the continuous output recorded by an integration of at least one step, at any
finite time `t`, never reads out of bounds and returns, for all the state variables, the Taylor
polynomials of the step covering `t`, evaluated at `t` minus the time of the beginning of that
step. `fwd` is the direction of the integration: forward if the final time is after the initial
one. -/
theorem continuous_output_correct (ha : Bool) {dim order : Nat} (t0 : K)
    (hist : List (K × List K)) (hne : hist ≠ []) {fwd : Bool}
    (hfwd : fwd = true ↔ t0 < (hist.map Prod.fst).getLast (by simpa using hne))
    (hm : Monotone' fwd (t0 :: hist.map Prod.fst))
    (c : Nat → Nat → Nat → Fin 1 → K)
    (hc : ∀ (i : Nat) (s : K × List K), hist[i]? = some s → HasCoeffs s.2 dim order (c i)) (t : K) :
    ∃ i tBeg, Covers fwd (t0 :: hist.map Prod.fst) t i ∧
      (t0 :: hist.map Prod.fst)[i]? = some tBeg ∧
      cOutCall ha dim order (some (record t0 hist)) (some t) =
        .ok ((List.range dim).map (poly (c i) order fun _ => t - tBeg)) := by
  have hlen : 2 ≤ (t0 :: hist.map Prod.fst).length := by
    have := List.length_pos_iff.mpr hne
    simp only [List.length_cons, List.length_map]; omega
  have hp := isPart_cOut hm t
  have hcov := covers_of_part hlen hp
  obtain ⟨i, hi⟩ : ∃ i, cOutIdx (t0 :: hist.map Prod.fst).length
      ((t0 :: hist.map Prod.fst).countP (cOutCond fwd t)) = i := ⟨_, rfl⟩
  rw [hi] at hcov
  have hidx := hcov.1
  refine ⟨i, _, hcov, List.getElem?_eq_getElem (by omega), ?_⟩
  have hrec : record t0 hist = ⟨(hist.map Prod.snd).flatten, t0 :: hist.map Prod.fst⟩ :=
    record_eq t0 hist
  rw [cOutCall, hrec]
  simp only [if_neg (Nat.not_lt.2 hlen)]
  have hne' : hist.map Prod.fst ≠ [] := by simpa using hne
  have hlast : (t0 :: hist.map Prod.fst).getLast? =
      some ((hist.map Prod.fst).getLast hne') := by
    rw [List.getLast?_eq_getLast_of_ne_nil (by simp)]
    rw [List.getLast_cons hne']
  have hdir : decide (t0 < (hist.map Prod.fst).getLast hne') = fwd := by
    rw [Bool.eq_iff_iff, decide_eq_true_eq, hfwd]
  simp only [cOutEval, List.head?_cons, hlast, hdir]
  rw [upperBound_part hp, Res.bind_ok, hi, List.getElem?_eq_getElem (by omega)]
  dsimp only
  simp only [List.length_cons, List.length_map] at hidx
  -- the data block of the selected step
  have hs : hist[i]? = some hist[i] := List.getElem?_eq_getElem (by omega)
  have hblocks : ∀ x ∈ hist.map Prod.snd, x.length = dim * (order + 1) := by
    intro x hx
    rw [List.mem_map] at hx
    obtain ⟨s, hs, rfl⟩ := hx
    obtain ⟨j, hj, rfl⟩ := List.getElem_of_mem hs
    rw [(hc j _ (List.getElem?_eq_getElem hj)).1]; simp
  refine evalPolys_eq ha _ ?_
  intro o ho v hv
  have hflat := flatten_length _ hblocks
  have hco := hc i _ hs
  have hlt := index_lt (b := 1) hv ho
  have hle : (i + 1) * (dim * (order + 1)) ≤ (hist.map Prod.snd).flatten.length := by
    rw [hflat]; exact Nat.mul_le_mul_right _ (by simp; omega)
  have e2 : (i + 1) * (dim * (order + 1)) = i * (dim * (order + 1)) + dim * (order + 1) := by ring
  obtain ⟨hb, e⟩ := dOutCf_ok (b := 1) (base := i * (dim * (order + 1))) (n := dim)
    (tcs := (hist.map Prod.snd).flatten) (by omega) hv ho
  rw [e]
  congr 1
  funext l
  have hl := l.isLt
  have hk := flatten_getElem? _ hblocks i ((v * (order + 1) + o) * 1 + l.val)
    (by have : (v * (order + 1) + o) * 1 = 1 * (order + 1) * v + 1 * o := by ring
        omega)
  rw [List.getElem?_map, hs] at hk
  simp only [Option.map_some, Option.bind_some] at hk
  rw [hco.2 v hv o ho l] at hk
  obtain ⟨_, hk⟩ := List.getElem?_eq_some_iff.1 hk
  rw [← hk]
  congr 1
  ring

/-- **C30.** Error cases: a default-constructed object and a non-finite time raise an exception. -/
theorem continuous_output_errors (ha : Bool) (dim order : Nat) (t : Option K) (c : COut K)
    (h : 2 ≤ c.times.length) :
    cOutCall ha dim order (none : Option (COut K)) t = .throw ∧
      cOutCall ha dim order (some c) none = .throw := by
  refine ⟨rfl, ?_⟩
  simp [cOutCall, Nat.not_lt.2 h]

/-! ## Batch version -/

omit [CommRing K] in
theorem isPart_cOutB {fwd : Bool} {xs : List K} (hm : Monotone' fwd xs) (t : K) :
    IsPart (xs.map Ext.fin ++ [if fwd then ⊤ else ⊥]) (cOutCondB fwd t)
      (xs.countP (cOutCond fwd t)) ∧ xs.countP (cOutCond fwd t) < xs.length + 1 := by
  obtain ⟨h1, h2⟩ := isPart_cOut hm t
  refine ⟨⟨by simp; omega, ?_⟩, by omega⟩
  intro i hi
  simp only [List.length_append, List.length_map, List.length_cons, List.length_nil] at hi
  rcases Nat.lt_or_ge i xs.length with h | h
  · rw [List.getElem_append_left (by simpa using h), List.getElem_map, ← h2 i h]
    cases fwd <;> simp [cOutCondB, cOutCond, Ext.fin]
  · have : i = xs.length := by omega
    subst this
    rw [List.getElem_append_right (by simp)]
    have hn : ¬ (xs.length < xs.countP (cOutCond fwd t)) := by omega
    rw [iff_false_right hn]
    cases fwd <;> simp [cOutCondB, Ext.fin, WithBot.bot_lt_coe]

theorem cOutIdxB_eq {n r : Nat} (hn : 2 ≤ n) (hr : r ≤ n) : cOutIdxB (n + 1) r = cOutIdx n r := by
  unfold cOutIdxB cOutIdx
  rw [Nat.add_sub_cancel]
  split_ifs <;> omega

theorem forall₂_finRange {α : Type*} {b : Nat} {R : α → Nat → Prop} (f : Fin b → α) (g : Fin b → Nat)
    (h : ∀ l, R (f l) (g l)) :
    List.Forall₂ R ((List.finRange b).map f) ((List.finRange b).map g) := by
  rw [List.forall₂_map_left_iff, List.forall₂_map_right_iff]
  exact List.forall₂_same.2 fun l _ => h l

/-- **C30**, batch version. The lanes may be integrated in different directions and may finish
at different times (their last steps have then size zero). In every lane the result is the Taylor
polynomial of the step covering the time requested for that lane; no access is out of bounds. -/
theorem continuous_output_batch_correct {b : Nat} (ha : Bool) {dim order : Nat}
    (t0 : Fin b → K) (hist : List ((Fin b → K) × List K)) (hne : hist ≠ []) (fwd : Fin b → Bool)
    (hm : ∀ l, Monotone' (fwd l) (t0 l :: hist.map fun s => s.1 l))
    (c : Nat → Nat → Nat → Fin b → K)
    (hc : ∀ (i : Nat) s, hist[i]? = some s → HasCoeffs s.2 dim order (c i)) (tm : Fin b → K) :
    ∃ (idx : Fin b → Nat) (tBeg : Fin b → K),
      (∀ l, Covers (fwd l) (t0 l :: hist.map fun s => s.1 l) (tm l) (idx l) ∧
        (t0 l :: hist.map fun s => s.1 l)[idx l]? = some (tBeg l)) ∧
      cOutEvalB ha dim order
          (mkCOutB (hist.map Prod.snd).flatten (t0 :: hist.map Prod.fst) fwd) tm =
        .ok ((List.range dim).map
          (poly (fun o v l => c (idx l) o v l) order fun l => tm l - tBeg l)) := by
  classical
  have hlen0 : 2 ≤ hist.length + 1 := by
    have := List.length_pos_iff.mpr hne; omega
  let col : Fin b → List K := fun l => t0 l :: hist.map fun s => s.1 l
  have hcollen : ∀ l, (col l).length = hist.length + 1 := fun l => by simp [col]
  let r : Fin b → Nat := fun l => (col l).countP (cOutCond (fwd l) (tm l))
  let idx : Fin b → Nat := fun l => cOutIdx (hist.length + 1) (r l)
  have hcov : ∀ l, Covers (fwd l) (col l) (tm l) (idx l) := by
    intro l
    have := covers_of_part (by rw [hcollen]; exact hlen0) (isPart_cOut (hm l) (tm l))
    change Covers (fwd l) (col l) (tm l) (cOutIdx (col l).length (r l)) at this
    rw [hcollen] at this
    exact this
  have hidx : ∀ l, idx l < hist.length := fun l => by
    have := (hcov l).1; rw [hcollen] at this; omega
  let tBeg : Fin b → K := fun l => (col l)[idx l]'(by rw [hcollen]; have := hidx l; omega)
  refine ⟨idx, tBeg, fun l => ⟨hcov l, List.getElem?_eq_getElem _⟩, ?_⟩
  -- the object
  set co := mkCOutB (hist.map Prod.snd).flatten (t0 :: hist.map Prod.fst) fwd with hco
  have htimes : co.times = (t0 :: hist.map Prod.fst).map (fun r l => Ext.fin (r l)) ++
      [fun l => if fwd l then ⊤ else ⊥] := rfl
  have htlen : co.times.length = hist.length + 1 + 1 := by rw [htimes]; simp
  have hhead : co.times.head? = some (fun l => Ext.fin (t0 l)) := by rw [htimes]; simp
  have hlast : co.times.getLast? = some (fun l => if fwd l then ⊤ else ⊥) := by
    rw [htimes]; exact List.getLast?_concat
  have hcolumn : ∀ l, co.times.map (· l) = (col l).map Ext.fin ++ [if fwd l then ⊤ else ⊥] := by
    intro l
    rw [htimes, List.map_append, List.map_map]
    simp only [col, List.map_cons, List.map_map, List.map_nil]
    rfl
  have hdir : ∀ l, decide ((Ext.fin (t0 l)) < (if fwd l then (⊤ : Ext K) else ⊥)) = fwd l := by
    intro l
    cases fwd l
    · simp
    · simp only [if_true, decide_eq_true_eq]
      exact WithBot.coe_lt_coe.2 (WithTop.coe_lt_top (t0 l))
  have hvec : vecLoop false ((List.finRange b).map fun l =>
      (⟨co.times.map (· l), cOutCondB (decide (Ext.fin (t0 l) < if fwd l then ⊤ else ⊥)) (tm l), 0,
        co.times.length⟩ : Lane (Ext K))) = .ok ((List.finRange b).map r) := by
    refine vecLoop_part _ le_rfl (forall₂_finRange _ _ fun l => ?_)
    obtain ⟨hp, hlt⟩ := isPart_cOutB (hm l) (tm l)
    have hlt' : r l < hist.length + 1 + 1 := by
      have := hlt
      change r l < (col l).length + 1 at this
      rwa [hcollen] at this
    refine ⟨?_, Nat.zero_le _, ?_, ?_, .inr ?_⟩
    · dsimp only
      rw [hcolumn, hdir]
      exact hp
    · dsimp only; rw [htlen]; omega
    · dsimp only; rw [htlen]; simp [htlen]
    · dsimp only; simp only [List.length_map, htlen]; omega
  simp only [cOutEvalB, hhead, hlast]
  rw [hvec, Res.bind_ok, dif_pos (by simp)]
  have hr : ∀ l, r l ≤ hist.length + 1 := fun l => by
    have := (isPart_cOut (hm l) (tm l)).1
    change r l ≤ (col l).length at this
    rwa [hcollen] at this
  have hidxs : (fun l : Fin b => cOutIdxB co.times.length
      (((List.finRange b).map r)[l.val]'(by simp))) = idx := by
    funext l
    simp only [List.getElem_map, List.getElem_finRange, htlen]
    exact cOutIdxB_eq hlen0 (hr l)
  rw [hidxs]
  have hstart : ∀ l, cOutBStart co.times idx l = some (tBeg l) := by
    intro l
    have h1 : idx l < (t0 :: hist.map Prod.fst).length := by
      have := hidx l; simp; omega
    unfold cOutBStart
    rw [htimes, List.getElem?_append_left (by simpa using h1), List.getElem?_map,
      List.getElem?_eq_getElem h1]
    simp only [Option.map_some, Option.bind_some]
    have : ((t0 :: hist.map Prod.fst)[idx l]) l = tBeg l := by
      have e : col l = (t0 :: hist.map Prod.fst).map (· l) := by simp [col, Function.comp_def]
      simp only [tBeg, e, List.getElem_map]
    rw [this]
    rfl
  rw [dif_pos (fun l => by rw [hstart l]; rfl)]
  have hh : (fun l => tm l - (cOutBStart co.times idx l).get (by rw [hstart l]; rfl)) =
      fun l => tm l - tBeg l := by
    funext l
    simp [hstart l]
  rw [hh]
  refine evalPolys_eq ha _ ?_
  intro o ho v hv
  have htcs : co.tcs = (hist.map Prod.snd).flatten := rfl
  have hblocks : ∀ x ∈ hist.map Prod.snd, x.length = dim * (order + 1) * b := by
    intro x hx
    rw [List.mem_map] at hx
    obtain ⟨s, hs, rfl⟩ := hx
    obtain ⟨j, hj, rfl⟩ := List.getElem_of_mem hs
    exact (hc j _ (List.getElem?_eq_getElem hj)).1
  have hget : ∀ l : Fin b, co.tcs[(idx l * (dim * (order + 1) * b) + l.val) +
      (b * (order + 1) * v + b * o)]? = some (c (idx l) o v l) := by
    intro l
    have hlt := index_lt (b := b) hv ho
    have hl := l.isLt
    have hk := flatten_getElem? _ hblocks (idx l) ((v * (order + 1) + o) * b + l.val)
      (by have : (v * (order + 1) + o) * b = b * (order + 1) * v + b * o := by ring
          omega)
    rw [List.getElem?_map, List.getElem?_eq_getElem (hidx l)] at hk
    simp only [Option.map_some, Option.bind_some] at hk
    rw [(hc (idx l) _ (List.getElem?_eq_getElem (hidx l))).2 v hv o ho l] at hk
    rw [htcs, ← hk]
    congr 1
    ring
  unfold cOutBCf
  rw [dif_pos (fun l => (List.getElem?_eq_some_iff.1 (hget l)).1)]
  congr 1
  funext l
  exact (List.getElem?_eq_some_iff.1 (hget l)).2

end

/-! ### Non-vacuity -/

example : Monotone' true ([0, 1, 1, 3] : List ℤ) := by
  simp only [Monotone', if_true]; decide
example : Covers true ([0, 1, 1, 3] : List ℤ) 1 2 :=
  ⟨by decide, .inr ⟨1, rfl, by decide⟩, .inl rfl⟩
example : cOutCall false 1 1 (some (record (0 : ℤ) [(1, [5, 2]), (3, [7, 4])])) (some 2) =
    .ok [fun _ => 11] := by
  obtain ⟨i, tb, h1, h2, h3⟩ := continuous_output_correct (K := ℤ) false (dim := 1) (order := 1) 0
    [(1, [5, 2]), (3, [7, 4])] (by simp) (fwd := true) (by simp)
    (by simp only [Monotone', if_true]; decide)
    (fun i o v _ => if i = 0 then (if o = 0 then 5 else 2) else (if o = 0 then 7 else 4))
    (by
      intro i s hs
      have hi : i = 0 ∨ i = 1 := by
        have := (List.getElem?_eq_some_iff.1 hs).1
        simp at this; omega
      rcases hi with rfl | rfl <;> simp at hs <;> subst hs <;>
        refine ⟨rfl, fun v hv o ho l => ?_⟩ <;>
        · match v, o, l, hv, ho with
          | 0, 0, 0, _, _ => rfl
          | 0, 1, 0, _, _ => rfl) 2
  have hi : i = 1 := covers_unique (by simp only [Monotone', if_true]; decide) h1
    ⟨by decide, .inr ⟨1, rfl, by decide⟩, .inl rfl⟩
  subst hi
  simp at h2
  subst h2
  rw [h3]
  simp only [List.range_one, List.map_cons, List.map_nil, Res.ok.injEq, List.cons.injEq, and_true]
  funext _
  simp [poly, Finset.sum_range_succ]

end Heyoka.Dense
