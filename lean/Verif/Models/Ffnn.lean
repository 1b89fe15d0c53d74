import Verif.Models.Basic
import Verif.Util.Res

/-!
# Feed-forward neural networks

`src/model/ffnn.cpp`, `include/heyoka/model/ffnn.hpp`.
-/

set_option linter.unusedSectionVars false

namespace Heyoka.Models

open Heyoka.Sym

section
variable {K : Type} [Field K] [LinearOrder K] [FloorRing K] [Fold K]

/-- A value of the type `su32` (`src/model/ffnn.cpp` 31-33, `include/heyoka/model/ffnn.hpp` 68-70): the operations of
`boost::safe_numerics::safe<std::uint32_t>` throw if the result does not fit in 32 bits. -/
def su32 (n : Nat) : Res Nat := if n < 2 ^ 32 then .ok n else .throw

/-- `boost::numeric_cast<std::uint32_t>()` (`include/heyoka/model/ffnn.hpp` 54-58). -/
def numCast32 (n : Int) : Res Nat := if 0 ≤ n ∧ n < 2 ^ 32 then .ok n.toNat else .throw

/-- `boost::numeric_cast<std::uint32_t>()` for the elements of a range (`include/heyoka/model/ffnn.hpp` 54-55). -/
def numCasts32 : List Int → Res (List Nat)
  | [] => .ok []
  | n :: ns => (numCast32 n).bind fun k => (numCasts32 ns).bind fun ks => .ok (k :: ks)

/-- The products of one neuron with the update of the counter of the weights (`src/model/ffnn.cpp` 52-57). An access out
of bounds to `nn_wb` is undefined behaviour. -/
def ffTerms (wb : List (Expr K)) : List (Expr K) → Nat → Res (List (Expr K) × Nat)
  | [], wc => .ok ([], wc)
  | x :: xs, wc =>
    match wb[wc]? with
    | none => .ub
    | some w => (su32 (wc + 1)).bind fun wc' => (ffTerms wb xs wc').bind fun r => .ok (mulE w x :: r.1, r.2)

/-- The loop over the neurons of a layer in `compute_layer()` (`src/model/ffnn.cpp` 35-69); `n` is the number of remaining
neurons. The activation is a pure function which does not throw. -/
def ffLayer (inputs : List (Expr K)) (act : Expr K → Expr K) (wb : List (Expr K)) (nW : Nat) :
    Nat → Nat → Nat → Res (List (Expr K) × Nat × Nat)
  | 0, wc, bc => .ok ([], wc, bc)
  | n + 1, wc, bc =>
    (ffTerms wb inputs wc).bind fun r =>
      (su32 (bc + nW)).bind fun bi =>
        match wb[bi]? with
        | none => .ub
        | some b =>
          (su32 (bc + 1)).bind fun bc' =>
            (ffLayer inputs act wb nW n r.2 bc').bind fun q => .ok (act (sumE (r.1 ++ [b])) :: q.1, q.2)

/-- The loop over the layers (`src/model/ffnn.cpp` 129-134). An access out of bounds to `activations` is undefined behaviour. -/
def ffLayers (wb : List (Expr K)) (nW : Nat) : List Nat → List (Expr K → Expr K) → List (Expr K) → Nat → Nat → Res (List (Expr K))
  | [], _, cur, _, _ => .ok cur
  | _ :: _, [], _, _, _ => .ub
  | n :: ns, f :: fs, cur, wc, bc => (ffLayer cur f wb nW n wc bc).bind fun r => ffLayers wb nW ns fs r.1 r.2.1 r.2.2

/-- The number of the parameters and the number of the weights (`src/model/ffnn.cpp` 115-121,
`include/heyoka/model/ffnn.hpp` 84-88 for the former only), for the numbers of neurons of the layers. -/
def ffCount : List Nat → Nat → Nat → Res (Nat × Nat)
  | a :: b :: t, nwb, nw =>
    (su32 (a * b)).bind fun p => (su32 (nwb + p)).bind fun nwb => (su32 (nw + p)).bind fun nw => (su32 (nwb + b)).bind fun nwb =>
      ffCount (b :: t) nwb nw
  | _, nwb, nw => .ok (nwb, nw)

/-- `ffnn_impl()` (`src/model/ffnn.cpp` 79-136). An empty `std::function` is `none`. -/
def ffnnImpl (inp : List (Expr K)) (hidden : List Nat) (nOut : Nat) (acts : List (Option (Expr K → Expr K)))
    (wb : List (Expr K)) : Res (List (Expr K)) :=
  if acts.isEmpty then .throw
  else if hidden.length ≠ acts.length - 1 then .throw
  else if inp.isEmpty then .throw
  else if nOut = 0 then .throw
  else if !(hidden.all fun n => 0 < n) then .throw
  else if acts.any Option.isNone then .throw
  else
    (su32 hidden.length).bind fun h => (su32 (h + 2)).bind fun _ => (su32 inp.length).bind fun nIn =>
      (ffCount (nIn :: (hidden ++ [nOut])) 0 0).bind fun c =>
        if wb.length ≠ c.1 then .throw
        else ffLayers wb c.2 (hidden ++ [nOut]) (acts.filterMap id) inp 0 0

/-- The default weights and biases (`include/heyoka/model/ffnn.hpp` 68-92). -/
def ffDefault (inp : List (Expr K)) (hidden : List Nat) (nOut : Nat) : Res (List (Expr K)) :=
  (su32 hidden.length).bind fun h => (su32 (h + 2)).bind fun _ => (su32 inp.length).bind fun nIn =>
    (ffCount (nIn :: (hidden ++ [nOut])) 0 0).bind fun c => .ok ((List.range c.1).map .par)

/-- `model::ffnn()` (`include/heyoka/model/ffnn.hpp` 39-96, 117-122). -/
def ffnn (inp : List (Expr K)) (hidden : List Int) (nOut : Int) (acts : List (Option (Expr K → Expr K)))
    (wb : Option (List (Expr K))) : Res (List (Expr K)) :=
  (numCasts32 hidden).bind fun hidden => (numCast32 nOut).bind fun nOut =>
    (match wb with
      | some wb => Res.ok wb
      | none => ffDefault inp hidden nOut).bind fun wb => ffnnImpl inp hidden nOut acts wb

end

/-! ### Specification -/

/-- The outputs of the neurons. The layer `0` consists of the inputs `x`; the neuron `i` of the layer `l + 1` applies the
activation function `σ l` to the sum of the outputs of the layer `l`, with the weights `W l i`, and of the bias `B l i`;
`n l` is the number of neurons of the layer `l`. -/
noncomputable def neuron (n : Nat → Nat) (σ : Nat → ℝ → ℝ) (W : Nat → Nat → Nat → ℝ) (B : Nat → Nat → ℝ) (x : Nat → ℝ) : Nat → Nat → ℝ
  | 0, i => x i
  | l + 1, i => σ l (∑ j ∈ Finset.range (n l), W l i j * neuron n σ W B x l j + B l i)

/-- The number of the weights of the first `l` layers. -/
def nWeights (n : Nat → Nat) (l : Nat) : Nat := ∑ k ∈ Finset.range l, n k * n (k + 1)
/-- The number of the biases of the first `l` layers. -/
def nBiases (n : Nat → Nat) (l : Nat) : Nat := ∑ k ∈ Finset.range l, n (k + 1)

/-! ### Lemmas -/

section
variable {K : Type} [Field K] [LinearOrder K] [FloorRing K] [Fold K]

theorem su32_ok {n : Nat} (h : n < 2 ^ 32) : su32 n = .ok n := if_pos h

theorem ffCount_eq : ∀ (ns : List Nat) (nwb nw : Nat),
    ffCount ns nwb nw = if ns.length ≤ 1 ∨ nwb + (nWeights (ns.getD · 0) (ns.length - 1) + nBiases (ns.getD · 0) (ns.length - 1)) < 2 ^ 32 ∧
        nw + nWeights (ns.getD · 0) (ns.length - 1) < 2 ^ 32
      then .ok (nwb + (nWeights (ns.getD · 0) (ns.length - 1) + nBiases (ns.getD · 0) (ns.length - 1)),
        nw + nWeights (ns.getD · 0) (ns.length - 1)) else .throw := by
  intro ns
  induction ns with
  | nil => intro nwb nw; simp [ffCount, nWeights, nBiases]
  | cons a t ih =>
    intro nwb nw
    cases t with
    | nil => simp [ffCount, nWeights, nBiases]
    | cons b t =>
      have e1 : nWeights ((a :: b :: t).getD · 0) ((a :: b :: t).length - 1) =
          a * b + nWeights ((b :: t).getD · 0) ((b :: t).length - 1) := by
        simp only [nWeights, List.length_cons, Nat.add_sub_cancel]
        rw [Finset.sum_range_succ']
        simp only [List.getD_cons_succ, List.getD_cons_zero]
        omega
      have e2 : nBiases ((a :: b :: t).getD · 0) ((a :: b :: t).length - 1) =
          b + nBiases ((b :: t).getD · 0) ((b :: t).length - 1) := by
        simp only [nBiases, List.length_cons, Nat.add_sub_cancel]
        rw [Finset.sum_range_succ']
        simp only [List.getD_cons_succ, List.getD_cons_zero]
        omega
      rw [e1, e2]
      generalize hw : nWeights ((b :: t).getD · 0) ((b :: t).length - 1) = w at *
      generalize hb : nBiases ((b :: t).getD · 0) ((b :: t).length - 1) = u at *
      have hl : ¬ (a :: b :: t).length ≤ 1 := by simp
      simp only [hl, false_or]
      have h0 : (b :: t).length ≤ 1 → w = 0 ∧ u = 0 := by
        intro h
        have : t = [] := by simpa using h
        subst this
        simp [nWeights] at hw
        simp [nBiases] at hb
        omega
      rw [ffCount]
      by_cases h : nwb + (a * b + w + (b + u)) < 2 ^ 32 ∧ nw + (a * b + w) < 2 ^ 32
      · rw [if_pos h]
        unfold su32
        have s : a * b < 2 ^ 32 := by omega
        simp only [if_pos s, Res.bind_ok, if_pos (show nwb + a * b < 2 ^ 32 by omega), if_pos (show nw + a * b < 2 ^ 32 by omega),
          if_pos (show nwb + a * b + b < 2 ^ 32 by omega)]
        rw [ih, if_pos (by right; omega)]
        refine congrArg Res.ok (Prod.ext ?_ ?_) <;> dsimp only <;> omega
      · rw [if_neg h]
        unfold su32
        by_cases s1 : a * b < 2 ^ 32
        · by_cases s2 : nwb + a * b < 2 ^ 32
          · by_cases s3 : nw + a * b < 2 ^ 32
            · by_cases s4 : nwb + a * b + b < 2 ^ 32
              · simp only [if_pos s1, if_pos s2, if_pos s3, if_pos s4, Res.bind_ok]
                rw [ih, if_neg]
                rintro (h1 | h1)
                · have := h0 h1
                  omega
                · omega
              · simp only [if_pos s1, if_pos s2, if_pos s3, if_neg s4, Res.bind_ok, Res.bind_throw]
            · simp only [if_pos s1, if_pos s2, if_neg s3, Res.bind_ok, Res.bind_throw]
          · simp only [if_pos s1, if_neg s2, Res.bind_ok, Res.bind_throw]
        · simp only [if_neg s1, Res.bind_throw]

theorem nWeights_succ (n : Nat → Nat) (l : Nat) : nWeights n (l + 1) = nWeights n l + n l * n (l + 1) := Finset.sum_range_succ _ _
theorem nBiases_succ (n : Nat → Nat) (l : Nat) : nBiases n (l + 1) = nBiases n l + n (l + 1) := Finset.sum_range_succ _ _

theorem nWeights_mono (n : Nat → Nat) {l m : Nat} (h : l ≤ m) : nWeights n l ≤ nWeights n m :=
  Finset.sum_le_sum_of_subset (Finset.range_mono h)
theorem nBiases_mono (n : Nat → Nat) {l m : Nat} (h : l ≤ m) : nBiases n l ≤ nBiases n m :=
  Finset.sum_le_sum_of_subset (Finset.range_mono h)

end

section
variable [DFunc]

/-- The parameters have the values `ω`. -/
def WbVal (v : Env ℝ) (wb : List (Expr ℝ)) (ω : Nat → ℝ) : Prop := ∀ k < wb.length, (wb[k]?).bind (Expr.eval v) = some (ω k)

theorem ffTerms_spec (wb : List (Expr ℝ)) (hb : wb.length < 2 ^ 32) : ∀ (xs : List (Expr ℝ)) (wc : Nat), wc + xs.length ≤ wb.length →
    ∃ ts, ffTerms wb xs wc = .ok (ts, wc + xs.length) ∧ ∀ v ω ys, WbVal v wb ω → Expr.evalL v xs = some ys →
      Expr.evalL v ts = some ((List.range xs.length).map fun j => ω (wc + j) * ys.getD j 0) := by
  intro xs
  induction xs with
  | nil => intro wc _; exact ⟨[], rfl, fun v ω ys _ _ => by simp⟩
  | cons x xs ih =>
    intro wc hw
    simp only [List.length_cons] at hw
    obtain ⟨ts, h1, h2⟩ := ih (wc + 1) (by omega)
    refine ⟨mulE wb[wc] x :: ts, ?_, ?_⟩
    · rw [ffTerms, List.getElem?_eq_getElem (by omega)]
      simp only
      rw [su32_ok (by omega), Res.bind_ok, h1, Res.bind_ok, List.length_cons, Nat.add_assoc, Nat.add_comm 1]
    · intro v ω ys hω hy
      have hw0 := hω wc (by omega)
      rw [List.getElem?_eq_getElem (by omega), Option.bind_some] at hw0
      cases hx : x.eval v with
      | none => simp [Expr.evalL, hx] at hy
      | some y =>
        cases hxs : Expr.evalL v xs with
        | none => simp [Expr.evalL, hx, hxs] at hy
        | some ys' =>
          have : ys = y :: ys' := by simp [Expr.evalL, hx, hxs] at hy; exact hy.symm
          subst this
          have h3 := h2 v ω ys' hω hxs
          rw [List.length_cons, List.range_succ_eq_map, List.map_cons, List.map_map]
          simp only [Expr.evalL, eval_mulE hw0 hx, h3]
          refine congrArg some ?_
          refine List.cons_eq_cons.2 ⟨by simp, List.map_congr_left fun j _ => ?_⟩
          simp [Nat.add_assoc, Nat.add_comm 1]

theorem evalL_length {v : Env ℝ} : ∀ {xs : List (Expr ℝ)} {ys : List ℝ}, Expr.evalL v xs = some ys → ys.length = xs.length := by
  intro xs
  induction xs with
  | nil => intro ys h; simp at h; subst h; rfl
  | cons x xs ih =>
    intro ys hy
    cases hx : x.eval v with
    | none => simp [Expr.evalL, hx] at hy
    | some y =>
      cases hxs : Expr.evalL v xs with
      | none => simp [Expr.evalL, hx, hxs] at hy
      | some ys' =>
        have : ys = y :: ys' := by simp [Expr.evalL, hx, hxs] at hy; exact hy.symm
        subst this
        simp [ih hxs]

theorem ffLayer_spec (inputs : List (Expr ℝ)) (act : Expr ℝ → Expr ℝ) (wb : List (Expr ℝ)) (nW : Nat) (hb : wb.length < 2 ^ 32) :
    ∀ (n wc bc : Nat), wc + n * inputs.length ≤ wb.length → nW + bc + n ≤ wb.length →
    ∃ out, ffLayer inputs act wb nW n wc bc = .ok (out, wc + n * inputs.length, bc + n) ∧ out.length = n ∧
      ∀ v ω ys (σ : ℝ → ℝ), WbVal v wb ω → Expr.evalL v inputs = some ys → (∀ e y, e.eval v = some y → (act e).eval v = some (σ y)) →
      Expr.evalL v out = some ((List.range n).map fun i =>
        σ (∑ j ∈ Finset.range inputs.length, ω (wc + i * inputs.length + j) * ys.getD j 0 + ω (nW + bc + i))) := by
  intro n
  induction n with
  | zero => intro wc bc _ _; exact ⟨[], by simp [ffLayer], rfl, fun v ω ys σ _ _ _ => by simp⟩
  | succ n ih =>
    intro wc bc hw hc
    have hm : (n + 1) * inputs.length = inputs.length + n * inputs.length := by ring
    obtain ⟨ts, h1, h2⟩ := ffTerms_spec wb hb inputs wc (by omega)
    obtain ⟨out, h3, h4, h5⟩ := ih (wc + inputs.length) (bc + 1) (by omega) (by omega)
    refine ⟨act (sumE (ts ++ [wb[bc + nW]])) :: out, ?_, by simp [h4], ?_⟩
    · rw [ffLayer, h1, Res.bind_ok, su32_ok (by omega), Res.bind_ok, List.getElem?_eq_getElem (by omega)]
      simp only
      rw [su32_ok (by omega), Res.bind_ok, h3, Res.bind_ok, hm]
      refine congrArg Res.ok (Prod.ext rfl (Prod.ext ?_ ?_)) <;> dsimp only <;> omega
    · intro v ω ys σ hω hy hσ
      have hb0 := hω (bc + nW) (by omega)
      rw [List.getElem?_eq_getElem (by omega), Option.bind_some] at hb0
      have hs1 : Expr.evalL v [wb[bc + nW]] = some [ω (bc + nW)] := evalL_cons_some hb0 (by simp [Expr.evalL])
      have hs := ev_sum (Expr.evalL_append (h2 v ω ys hω hy) hs1)
      have h6 := h5 v ω ys σ hω hy hσ
      rw [List.range_succ_eq_map, List.map_cons, List.map_map]
      simp only [Expr.evalL, hσ _ _ hs, h6]
      refine congrArg some (List.cons_eq_cons.2 ⟨?_, List.map_congr_left fun i _ => ?_⟩)
      · rw [List.sum_append, List.sum_singleton, ← List.sum_toFinset _ List.nodup_range, List.toFinset_range]
        simp [Nat.add_comm]
      · have e : ∀ j, wc + inputs.length + i * inputs.length + j = wc + (i + 1) * inputs.length + j := fun j => by ring
        simp only [Function.comp, Nat.succ_eq_add_one, e]
        rw [show nW + (bc + 1) + i = nW + bc + (i + 1) by omega]

theorem ffLayers_spec (ns : List Nat) (acts : List (Expr ℝ → Expr ℝ)) (wb : List (Expr ℝ)) (nW : Nat) (hb : wb.length < 2 ^ 32)
    (hl : acts.length + 1 = ns.length) (hw : nW = nWeights (ns.getD · 0) acts.length)
    (hwb : wb.length = nW + nBiases (ns.getD · 0) acts.length) :
    ∀ (r l : Nat) (cur : List (Expr ℝ)), l + r = acts.length → cur.length = ns.getD l 0 →
    ∃ out, ffLayers wb nW (ns.drop (l + 1)) (acts.drop l) cur (nWeights (ns.getD · 0) l) (nBiases (ns.getD · 0) l) = .ok out ∧
      out.length = ns.getD acts.length 0 ∧
      ∀ v ω (σ : Nat → ℝ → ℝ) x, WbVal v wb ω →
        (∀ k f, acts[k]? = some f → ∀ e y, e.eval v = some y → (f e).eval v = some (σ k y)) →
        Expr.evalL v cur = some ((List.range (ns.getD l 0)).map
          (neuron (ns.getD · 0) σ (fun k i j => ω (nWeights (ns.getD · 0) k + i * ns.getD k 0 + j))
            (fun k i => ω (nW + nBiases (ns.getD · 0) k + i)) x l)) →
        Expr.evalL v out = some ((List.range (ns.getD acts.length 0)).map
          (neuron (ns.getD · 0) σ (fun k i j => ω (nWeights (ns.getD · 0) k + i * ns.getD k 0 + j))
            (fun k i => ω (nW + nBiases (ns.getD · 0) k + i)) x acts.length)) := by
  intro r
  induction r with
  | zero =>
    intro l cur hr hc
    have : l = acts.length := by omega
    subst this
    refine ⟨cur, ?_, hc, fun v ω σ x _ _ h => h⟩
    rw [List.drop_eq_nil_of_le (by omega), ffLayers]
  | succ r ih =>
    intro l cur hr hc
    have hn : l + 1 < ns.length := by omega
    have ha : l < acts.length := by omega
    have hg : ns.getD (l + 1) 0 = ns[l + 1] := by simp [List.getD_eq_getElem?_getD, hn]
    have hm := nWeights_mono (ns.getD · 0) (show l + 1 ≤ acts.length by omega)
    have hm' := nBiases_mono (ns.getD · 0) (show l + 1 ≤ acts.length by omega)
    rw [nWeights_succ] at hm
    rw [nBiases_succ] at hm'
    simp only [hg] at hm hm'
    obtain ⟨o, h1, h2, h3⟩ := ffLayer_spec cur acts[l] wb nW hb ns[l + 1] (nWeights (ns.getD · 0) l) (nBiases (ns.getD · 0) l)
      (by rw [hc, Nat.mul_comm]; omega) (by omega)
    obtain ⟨out, h4, h5, h6⟩ := ih (l + 1) o (by omega) (by rw [h2, hg])
    refine ⟨out, ?_, h5, ?_⟩
    · rw [List.drop_eq_getElem_cons hn, List.drop_eq_getElem_cons ha, ffLayers, h1, Res.bind_ok]
      dsimp only
      rw [← h4, nWeights_succ, nBiases_succ, hg, hc, Nat.mul_comm]
    · intro v ω σ x hω hσ hx
      refine h6 v ω σ x hω hσ ?_
      rw [h3 v ω _ (σ l) hω hx fun e y he => hσ l _ (List.getElem?_eq_getElem ha) e y he, hg]
      refine congrArg some (List.map_congr_left fun i _ => ?_)
      rw [neuron, hc]
      refine congrArg (σ l) (congrArg (· + _) (Finset.sum_congr rfl fun j hj => ?_))
      have : j < ns.getD l 0 := Finset.mem_range.1 hj
      refine congrArg (_ * ·) ?_
      rw [List.getD_eq_getElem?_getD, List.getElem?_map, List.getElem?_range this]
      rfl

end

end Heyoka.Models
