import Verif.Models.Ffnn

/-!
# Feed-forward neural networks (C53)

The outputs of `model::ffnn()` are the outputs of the neurons of the last layer of the network, for the weights and biases
flattened in the documented order. The specification is `neuron` (`Verif/Models/Ffnn.lean`).
-/

set_option linter.unusedSectionVars false

namespace Heyoka.Models

open Heyoka.Sym

/-- The numbers of neurons of the layers. -/
def layerSize (nIn : Nat) (hidden : List Int) (nOut : Int) (k : Nat) : Nat := (nIn :: (hidden ++ [nOut]).map Int.toNat).getD k 0

/-- The number of the parameters of the network. -/
def nParams (nIn : Nat) (hidden : List Int) (nOut : Int) : Nat :=
  nWeights (layerSize nIn hidden nOut) (hidden.length + 1) + nBiases (layerSize nIn hidden nOut) (hidden.length + 1)

/-- The arguments are consistent: one activation function for each layer except the inputs, no empty functions, no empty
layers, the right number of parameters if they are given, less than `2^32` parameters. -/
def FfValid {K : Type} (nIn : Nat) (hidden : List Int) (nOut : Int) (acts : List (Option (Expr K → Expr K)))
    (wb : Option (List (Expr K))) : Prop :=
  acts.length = hidden.length + 1 ∧ (∀ f ∈ acts, f ≠ none) ∧ 0 < nIn ∧ (∀ n ∈ hidden, 0 < n) ∧ 0 < nOut ∧
    (∀ w, wb = some w → w.length = nParams nIn hidden nOut) ∧ nParams nIn hidden nOut < 2 ^ 32

section
variable {K : Type} [Field K] [LinearOrder K] [FloorRing K] [Fold K]

theorem numCasts32_eq (ns : List Int) :
    numCasts32 ns = if ∀ n ∈ ns, 0 ≤ n ∧ n < 2 ^ 32 then .ok (ns.map Int.toNat) else .throw := by
  induction ns with
  | nil => simp [numCasts32]
  | cons n ns ih =>
    rw [numCasts32, ih]
    unfold numCast32
    by_cases h1 : 0 ≤ n ∧ n < 2 ^ 32
    · by_cases h2 : ∀ n ∈ ns, 0 ≤ n ∧ n < 2 ^ 32
      · rw [if_pos h1, if_pos h2, if_pos (by simpa using ⟨h1, h2⟩)]
        rfl
      · rw [if_pos h1, if_neg h2, if_neg fun h => h2 fun m hm => h m (.tail _ hm)]
        rfl
    · rw [if_neg h1, if_neg (fun h : ∀ m ∈ n :: ns, 0 ≤ m ∧ m < 2 ^ 32 => h1 (h n (.head _)))]
      rfl

theorem layerSize_le {nIn : Nat} {hidden : List Int} {nOut : Int} {k : Nat} (hk : k < hidden.length + 1) :
    layerSize nIn hidden nOut (k + 1) ≤ nParams nIn hidden nOut := by
  have h : layerSize nIn hidden nOut (k + 1) ≤ nBiases (layerSize nIn hidden nOut) (hidden.length + 1) :=
    Finset.single_le_sum (f := fun k => layerSize nIn hidden nOut (k + 1)) (fun _ _ => Nat.zero_le _) (Finset.mem_range.2 hk)
  unfold nParams
  omega

theorem layerSize_pos {nIn : Nat} {hidden : List Int} {nOut : Int} (h0 : 0 < nIn) (h1 : ∀ n ∈ hidden, 0 < n) (h2 : 0 < nOut)
    {k : Nat} (hk : k < hidden.length + 2) : 0 < layerSize nIn hidden nOut k := by
  unfold layerSize
  rcases k with _ | k
  · simpa using h0
  · have hl : k < ((hidden ++ [nOut]).map Int.toNat).length := by simp; omega
    rw [List.getD_cons_succ, List.getD_eq_getElem?_getD, List.getElem?_eq_getElem hl, Option.getD_some, List.getElem_map]
    have hm := List.getElem_mem (l := hidden ++ [nOut]) (n := k) (by simp; omega)
    rcases List.mem_append.1 hm with h | h
    · have := h1 _ h
      omega
    · have : (hidden ++ [nOut])[k]'(by simp; omega) = nOut := by simpa using h
      omega

theorem nIn_le {nIn : Nat} {hidden : List Int} {nOut : Int} (h0 : 0 < nIn) (h1 : ∀ n ∈ hidden, 0 < n) (h2 : 0 < nOut) :
    nIn ≤ nParams nIn hidden nOut ∧ hidden.length + 2 ≤ nParams nIn hidden nOut := by
  have h3 := layerSize_pos h0 h1 h2 (k := 1) (by omega)
  have h4 : nIn * layerSize nIn hidden nOut 1 ≤ nWeights (layerSize nIn hidden nOut) (hidden.length + 1) := by
    have := Finset.single_le_sum (f := fun k => layerSize nIn hidden nOut k * layerSize nIn hidden nOut (k + 1))
      (fun _ _ => Nat.zero_le _) (Finset.mem_range.2 (Nat.succ_pos hidden.length))
    exact this
  have h5 : hidden.length + 1 ≤ nBiases (layerSize nIn hidden nOut) (hidden.length + 1) := by
    have := Finset.card_nsmul_le_sum (Finset.range (hidden.length + 1)) (fun k => layerSize nIn hidden nOut (k + 1)) 1
      (fun k hk => layerSize_pos h0 h1 h2 (by have := Finset.mem_range.1 hk; omega))
    simpa [nBiases] using this
  have h6 : nIn ≤ nIn * layerSize nIn hidden nOut 1 := Nat.le_mul_of_pos_right _ h3
  unfold nParams
  omega

end

section
variable [DFunc] {inp : List (Expr ℝ)} {hidden : List Int} {nOut : Int} {acts : List (Option (Expr ℝ → Expr ℝ))}
  {wb : Option (List (Expr ℝ))}

theorem ffCount_layers :
    ffCount (inp.length :: (hidden.map Int.toNat ++ [nOut.toNat])) 0 0 = if nParams inp.length hidden nOut < 2 ^ 32 then
      .ok (nParams inp.length hidden nOut, nWeights (layerSize inp.length hidden nOut) (hidden.length + 1)) else .throw := by
  have e : hidden.map Int.toNat ++ [nOut.toNat] = (hidden ++ [nOut]).map Int.toNat := by simp
  rw [e, ffCount_eq]
  have hl : (inp.length :: (hidden ++ [nOut]).map Int.toNat).length - 1 = hidden.length + 1 := by simp
  have hf : (fun k => (inp.length :: (hidden ++ [nOut]).map Int.toNat).getD k 0) = layerSize inp.length hidden nOut := rfl
  rw [hl, hf]
  have hn : ¬ (inp.length :: (hidden ++ [nOut]).map Int.toNat).length ≤ 1 := by simp
  unfold nParams
  by_cases h : nWeights (layerSize inp.length hidden nOut) (hidden.length + 1) +
      nBiases (layerSize inp.length hidden nOut) (hidden.length + 1) < 2 ^ 32
  · rw [if_pos (.inr (by omega)), if_pos h]
    simp
  · rw [if_neg (by rintro (h1 | h1); exacts [hn h1, h (by omega)]), if_neg h]

/-- The computation of the network for consistent arguments. -/
theorem ffnn_run (h : FfValid inp.length hidden nOut acts wb) :
    ∃ w, (wb = some w ∨ wb = none ∧ w = (List.range (nParams inp.length hidden nOut)).map .par) ∧
      w.length = nParams inp.length hidden nOut ∧
      ffnn inp hidden nOut acts wb = ffLayers w (nWeights (layerSize inp.length hidden nOut) (hidden.length + 1))
        ((hidden ++ [nOut]).map Int.toNat) (acts.filterMap id) inp 0 0 := by
  obtain ⟨h1, h2, h3, h4, h5, h6, h7⟩ := h
  have hle := nIn_le h3 h4 h5
  have hr : ∀ n ∈ hidden ++ [nOut], 0 ≤ n ∧ n < 2 ^ 32 := by
    intro n hn
    obtain ⟨k, hk, rfl⟩ := List.getElem_of_mem hn
    have hk' : k < hidden.length + 1 := by simpa using hk
    have := layerSize_le (nIn := inp.length) (nOut := nOut) hk'
    unfold layerSize at this
    rw [List.getD_cons_succ, List.getD_eq_getElem?_getD, List.getElem?_eq_getElem (by simpa using hk), Option.getD_some,
      List.getElem_map] at this
    have hp : 0 < (hidden ++ [nOut])[k] := by
      rcases List.mem_append.1 hn with h | h
      · exact h4 _ h
      · rw [List.mem_singleton] at h
        omega
    omega
  have hc1 : numCasts32 hidden = .ok (hidden.map Int.toNat) := by
    rw [numCasts32_eq, if_pos fun n hn => hr n (List.mem_append_left _ hn)]
  have hc2 : numCast32 nOut = .ok nOut.toNat := if_pos (hr nOut (by simp))
  have hcount := ffCount_layers (inp := inp) (hidden := hidden) (nOut := nOut)
  rw [if_pos h7] at hcount
  have hacts : acts.isEmpty = false := by
    cases acts with
    | nil => simp at h1
    | cons => rfl
  have hinp : inp.isEmpty = false := by
    cases inp with
    | nil => simp at h3
    | cons => rfl
  have himpl (w : List (Expr ℝ)) (hw : w.length = nParams inp.length hidden nOut) :
      ffnnImpl inp (hidden.map Int.toNat) nOut.toNat acts w =
        ffLayers w (nWeights (layerSize inp.length hidden nOut) (hidden.length + 1)) ((hidden ++ [nOut]).map Int.toNat)
          (acts.filterMap id) inp 0 0 := by
    rw [ffnnImpl, hacts, hinp, if_neg (by simp), if_neg (by simp; omega), if_neg (by simp), if_neg (by omega), if_neg, if_neg,
      List.length_map, su32_ok (by omega), Res.bind_ok, su32_ok (by omega), Res.bind_ok, su32_ok (by omega), Res.bind_ok, hcount,
      Res.bind_ok, if_neg (by simpa using hw)]
    · simp
    · simp only [List.any_eq_true, not_exists, not_and]
      intro f hf hn
      exact h2 f hf (by simpa using hn)
    · simpa using h4
  unfold ffnn
  rw [hc1, Res.bind_ok, hc2, Res.bind_ok]
  cases wb with
  | some w => exact ⟨w, .inl rfl, h6 w rfl, by rw [← himpl w (h6 w rfl)]; rfl⟩
  | none =>
    refine ⟨(List.range (nParams inp.length hidden nOut)).map .par, .inr ⟨rfl, rfl⟩, by simp, ?_⟩
    rw [← himpl _ (by simp)]
    show (ffDefault inp _ _).bind _ = _
    rw [ffDefault, List.length_map, su32_ok (by omega), Res.bind_ok, su32_ok (by omega), Res.bind_ok, su32_ok (by omega),
      Res.bind_ok, hcount, Res.bind_ok, Res.bind_ok]

theorem filterMap_id {α : Type} {l : List (Option α)} (h : ∀ f ∈ l, f ≠ none) : l = (l.filterMap id).map some := by
  induction l with
  | nil => rfl
  | cons f l ih =>
    have ih := ih fun g hg => h g (.tail _ hg)
    cases f with
    | none => exact absurd rfl (h none (.head _))
    | some f =>
      rw [List.filterMap_cons]
      simpa using ih

/-- For consistent arguments the network is built: there are `n_out` outputs, and the values of the outputs are the ones of the
neurons of the last layer. The weights are the first parameters: layer by layer, row by row (one row for each neuron of the
layer); the biases follow, layer by layer. -/
theorem ffnn_value (h : FfValid inp.length hidden nOut acts wb) :
    ∃ out, ffnn inp hidden nOut acts wb = .ok out ∧ (out.length : Int) = nOut ∧
      ∀ v (ω : Nat → ℝ) (σ : Nat → ℝ → ℝ) (x : Nat → ℝ),
        (∀ i < inp.length, (inp[i]?).bind (Expr.eval v) = some (x i)) →
        (∀ w, wb = some w → ∀ k < w.length, (w[k]?).bind (Expr.eval v) = some (ω k)) → (wb = none → ω = v.par) →
        (∀ k f, acts[k]? = some (some f) → ∀ e y, e.eval v = some y → (f e).eval v = some (σ k y)) →
        ∀ i < out.length, (out[i]?).bind (Expr.eval v) = some (neuron (layerSize inp.length hidden nOut) σ
          (fun l i j => ω (nWeights (layerSize inp.length hidden nOut) l + i * layerSize inp.length hidden nOut l + j))
          (fun l i => ω (nWeights (layerSize inp.length hidden nOut) (hidden.length + 1) +
            nBiases (layerSize inp.length hidden nOut) l + i)) x (hidden.length + 1) i) := by
  obtain ⟨w, hw, hwl, hrun⟩ := ffnn_run h
  obtain ⟨h1, h2, h3, h4, h5, h6, h7⟩ := h
  have hfm := filterMap_id h2
  have hal : (acts.filterMap id).length = hidden.length + 1 := by
    rw [← h1]
    conv_rhs => rw [hfm, List.length_map]
  obtain ⟨out, ho1, ho2, ho3⟩ := ffLayers_spec (inp.length :: (hidden ++ [nOut]).map Int.toNat) (acts.filterMap id) w
    (nWeights (layerSize inp.length hidden nOut) (hidden.length + 1)) (by omega) (by rw [hal]; simp) (by rw [hal]; rfl)
    (by rw [hal, hwl]; rfl) (hidden.length + 1) 0 inp (by omega) (by simp)
  rw [hal] at ho2 ho3
  have hlast : (inp.length :: (hidden ++ [nOut]).map Int.toNat).getD (hidden.length + 1) 0 = nOut.toNat := by simp
  have h0 : nWeights (fun k => (inp.length :: (hidden ++ [nOut]).map Int.toNat).getD k 0) 0 = 0 := rfl
  have h0' : nBiases (fun k => (inp.length :: (hidden ++ [nOut]).map Int.toNat).getD k 0) 0 = 0 := rfl
  rw [h0, h0'] at ho1
  refine ⟨out, by rw [hrun]; exact ho1, by rw [ho2, hlast]; omega, ?_⟩
  intro v ω σ x hx hω hpar hσ i hi
  have hwv : WbVal v w ω := by
    intro k hk
    rcases hw with hw | ⟨hn, rfl⟩
    · exact hω w hw k hk
    · rw [hpar hn, List.getElem?_map, List.getElem?_range (by simpa using hk)]
      simp
  have hin : Expr.evalL v inp = some ((List.range inp.length).map x) := by
    have : ∀ (l : List (Expr ℝ)) (y : Nat → ℝ), (∀ i < l.length, (l[i]?).bind (Expr.eval v) = some (y i)) →
        Expr.evalL v l = some ((List.range l.length).map y) := by
      intro l
      induction l with
      | nil => intro y _; simp
      | cons e l ih =>
        intro y hy
        rw [List.length_cons, List.range_succ_eq_map, List.map_cons, List.map_map]
        refine evalL_cons_some (by simpa using hy 0 (by simp)) (ih _ fun i hi => ?_)
        simpa using hy (i + 1) (by simpa using hi)
    exact this inp x hx
  have hv := ho3 v ω σ x hwv (fun k f hf => hσ k f (by rw [hfm, List.getElem?_map, hf]; rfl)) (by simpa [neuron] using hin)
  have hlen : out.length = nOut.toNat := by rw [ho2, hlast]
  have hget : ∀ (l : List (Expr ℝ)) (ys : List ℝ), Expr.evalL v l = some ys → ∀ i < l.length, (l[i]?).bind (Expr.eval v) = ys[i]? := by
    intro l
    induction l with
    | nil => intro ys _ i hi; simp at hi
    | cons e l ih =>
      intro ys hy i hi
      cases hx : e.eval v with
      | none => simp [Expr.evalL, hx] at hy
      | some y =>
        cases hxs : Expr.evalL v l with
        | none => simp [Expr.evalL, hx, hxs] at hy
        | some ys' =>
          have : ys = y :: ys' := by simp [Expr.evalL, hx, hxs] at hy; exact hy.symm
          subst this
          cases i with
          | zero => simpa using hx
          | succ i => simpa using ih ys' hxs i (by simpa using hi)
  rw [hlast] at hv
  rw [hget out _ hv i hi, List.getElem?_map, List.getElem?_range (by omega)]
  rfl

/-- Inconsistent arguments are rejected. -/
theorem ffnn_rejects (h : ¬ FfValid inp.length hidden nOut acts wb) : ffnn inp hidden nOut acts wb = .throw := by
  unfold ffnn
  rw [numCasts32_eq]
  by_cases c1 : ∀ n ∈ hidden, 0 ≤ n ∧ n < 2 ^ 32
  swap
  · rw [if_neg c1]; rfl
  rw [if_pos c1, Res.bind_ok]
  unfold numCast32
  by_cases c2 : 0 ≤ nOut ∧ nOut < 2 ^ 32
  swap
  · rw [if_neg c2]; rfl
  rw [if_pos c2, Res.bind_ok]
  have hcount := ffCount_layers (inp := inp) (hidden := hidden) (nOut := nOut)
  have himpl : ∀ w, (wb = none ∨ wb = some w) → ffnnImpl inp (hidden.map Int.toNat) nOut.toNat acts w ≠ .throw →
      (wb = none → w.length = nParams inp.length hidden nOut) → False := by
    intro w hw hne hwn
    refine h (Classical.byContradiction fun hcon => ?_)
    unfold ffnnImpl at hne
    by_cases d1 : acts.isEmpty
    · rw [if_pos d1] at hne; exact hne rfl
    rw [if_neg d1] at hne
    by_cases d2 : (hidden.map Int.toNat).length ≠ acts.length - 1
    · rw [if_pos d2] at hne; exact hne rfl
    rw [if_neg d2] at hne
    by_cases d3 : inp.isEmpty
    · rw [if_pos d3] at hne; exact hne rfl
    rw [if_neg d3] at hne
    by_cases d4 : nOut.toNat = 0
    · rw [if_pos d4] at hne; exact hne rfl
    rw [if_neg d4] at hne
    by_cases d5 : !((hidden.map Int.toNat).all fun n => 0 < n)
    · rw [if_pos d5] at hne; exact hne rfl
    rw [if_neg d5] at hne
    by_cases d6 : acts.any Option.isNone
    · rw [if_pos d6] at hne; exact hne rfl
    rw [if_neg d6] at hne
    unfold su32 at hne
    by_cases s1 : (hidden.map Int.toNat).length < 2 ^ 32
    swap
    · rw [if_neg s1] at hne; exact hne rfl
    rw [if_pos s1, Res.bind_ok] at hne
    by_cases s2 : (hidden.map Int.toNat).length + 2 < 2 ^ 32
    swap
    · rw [if_neg s2] at hne; exact hne rfl
    rw [if_pos s2, Res.bind_ok] at hne
    by_cases s3 : inp.length < 2 ^ 32
    swap
    · rw [if_neg s3] at hne; exact hne rfl
    rw [if_pos s3, Res.bind_ok, hcount] at hne
    by_cases s4 : nParams inp.length hidden nOut < 2 ^ 32
    swap
    · rw [if_neg s4] at hne; exact hne rfl
    rw [if_pos s4, Res.bind_ok] at hne
    by_cases s5 : w.length ≠ nParams inp.length hidden nOut
    · rw [if_pos s5] at hne; exact hne rfl
    have hal : 0 < acts.length := by
      cases acts with
      | nil => simp at d1
      | cons => simp
    have hil : 0 < inp.length := by
      cases inp with
      | nil => simp at d3
      | cons => simp
    rw [List.length_map] at d2
    refine hcon ⟨by omega, ?_, hil, by simpa using d5, by omega, ?_, s4⟩
    · intro f hf hn
      subst hn
      apply d6
      rw [List.any_eq_true]
      exact ⟨none, hf, rfl⟩
    · intro w' hw'
      rcases hw with hw | hw
      · rw [hw] at hw'; cases hw'
      · rw [hw] at hw'; cases hw'; exact not_not.1 s5
  cases wb with
  | some w =>
    by_contra hne
    exact himpl w (.inr rfl) hne (by simp)
  | none =>
    by_contra hne
    revert hne
    show ¬ ¬ ((ffDefault inp _ _).bind _ = _)
    intro hne
    rw [ffDefault] at hne
    unfold su32 at hne
    by_cases s1 : (hidden.map Int.toNat).length < 2 ^ 32
    swap
    · rw [if_neg s1] at hne; exact hne rfl
    rw [if_pos s1, Res.bind_ok] at hne
    by_cases s2 : (hidden.map Int.toNat).length + 2 < 2 ^ 32
    swap
    · rw [if_neg s2] at hne; exact hne rfl
    rw [if_pos s2, Res.bind_ok] at hne
    by_cases s3 : inp.length < 2 ^ 32
    swap
    · rw [if_neg s3] at hne; exact hne rfl
    rw [if_pos s3, Res.bind_ok, hcount] at hne
    by_cases s4 : nParams inp.length hidden nOut < 2 ^ 32
    swap
    · rw [if_neg s4] at hne; exact hne rfl
    rw [if_pos s4, Res.bind_ok, Res.bind_ok] at hne
    exact himpl _ (.inl rfl) hne (by simp)

end

section
local instance instDFuncFfnn : DFunc := ⟨none⟩

/-- A network with two inputs, a hidden layer of two neurons with activation `tanh` and one output, with default parameters. -/
example : FfValid (K := ℝ) ([.var "x", .var "y"] : List (Expr ℝ)).length [2] 1
    [some (unaryE .tanh), some id] none := by
  refine ⟨rfl, by simp, by simp, by simp, by simp, by simp, by decide +kernel⟩

/-- Its parameters: `4 + 2` weights followed by `2 + 1` biases. -/
example : nParams 2 [2] 1 = 9 := by decide +kernel

/-- The value of the output. -/
example (v : Env ℝ) : ∃ out, ffnn [.var "x", .var "y"] [2] 1 [some (unaryE .tanh), some id] none = .ok [out] ∧
    out.eval v = some (v.par 4 * Real.tanh (v.par 0 * v.var "x" + v.par 1 * v.var "y" + v.par 6) +
      v.par 5 * Real.tanh (v.par 2 * v.var "x" + v.par 3 * v.var "y" + v.par 7) + v.par 8) := by
  have hv : FfValid (K := ℝ) ([.var "x", .var "y"] : List (Expr ℝ)).length [2] 1 [some (unaryE .tanh), some id] none := by
    refine ⟨rfl, by simp, by simp, by simp, by simp, by simp, by decide +kernel⟩
  obtain ⟨out, h1, h2, h3⟩ := ffnn_value hv
  have hl : out.length = 1 := by exact_mod_cast h2
  obtain ⟨o, rfl⟩ := List.length_eq_one_iff.1 hl
  refine ⟨o, h1, ?_⟩
  have := h3 v v.par (fun k => if k = 0 then Real.tanh else id) (fun i => if i = 0 then v.var "x" else v.var "y") ?_ (by simp)
    (fun _ => rfl) ?_ 0 (by simp)
  · simp [neuron, Finset.sum_range_succ, layerSize, nWeights, nBiases] at this
    rw [this]
  · intro i hi
    have : i = 0 ∨ i = 1 := by simp at hi; omega
    rcases this with rfl | rfl <;> simp
  · intro k f hf e y he
    rcases k with _ | _ | k
    · simp at hf
      subst hf
      exact ev_unary (by simp) (by simp) he (by simp [realApp])
    · simp at hf
      subst hf
      simpa using he
    · simp at hf

/-- A wrong number of activation functions. -/
example : ffnn (K := ℝ) [.var "x"] [2] 1 [some id] none = .throw :=
  ffnn_rejects (by rintro ⟨h, -⟩; simp at h)

end

end Heyoka.Models
