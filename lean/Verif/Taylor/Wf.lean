import Verif.Taylor.ReIdx
import Mathlib.Data.List.Forall2

/-!
# Well-formed Taylor decompositions

A purely syntactic condition on decompositions: the elements are functions of numbers, parameters and earlier `u`
variables in the shapes accepted by the recurrences, and the hidden dependencies are any `u` variables. The passes
on decompositions preserve it.
-/

set_option linter.unusedSectionVars false

namespace Heyoka.Taylor

open Heyoka.Sym

variable {K : Type}

/-- The arguments accepted by the recurrence of a function. The rectifiers and the constants, the functions whose names
contain a part chosen by the user, are restricted by `L`. -/
def TShape (L : Fn K → Prop) : Fn K → List (Expr K) → Prop
  | .sum, as | .sumSq, as | .land, as | .lor, as => as ≠ []
  | .prod _, as | .sub, as | .div, as | .atan2, as | .rel _, as | .kepE, as => as.length = 2
  | .pow _, as => ∃ x m, as = [x, .num m]
  | .sin _, as | .cos _, as | .tan, as | .asin, as | .acos, as | .atan, as | .sinh, as | .cosh, as | .tanh, as
  | .asinh, as | .acosh, as | .atanh, as | .erf, as | .exp, as | .log, as | .sigmoid, as => as.length = 1
  | .relu s, as => as.length = 1 ∧ L (.relu s)
  | .relup s, as => as.length = 1 ∧ L (.relup s)
  | .kepF, as | .select, as => as.length = 3
  | .time, _ => True
  | .const c, _ => L (.const c)
  | .numId, as => ∃ m, as = [.num m]
  | .kepDE, _ | .dfun _ _, _ | .other _, _ => False

/-- The number of hidden dependencies of a function. -/
def depCount : Fn K → ℕ
  | .sin _ | .cos _ | .tan | .asin | .acos | .atan | .sinh | .cosh | .tanh | .asinh | .acosh | .atanh | .erf
  | .sigmoid | .atan2 => 1
  | .kepE => 2
  | .kepF => 4
  | _ => 0

variable {L : Fn K → Prop}

theorem TShape.map {f : Fn K} {as : List (Expr K)} (h : TShape L f as) {g : Expr K → Expr K}
    (hg : ∀ m, g (.num m) = .num m) : TShape L f (as.map g) := by
  cases f
  case pow k => obtain ⟨x, m, rfl⟩ := h; exact ⟨g x, m, by simp [hg]⟩
  case numId => obtain ⟨m, rfl⟩ := h; exact ⟨m, by simp [hg]⟩
  all_goals first
    | exact h
    | (simpa [TShape] using h)

/-- The arguments of the element `i`: variables before it, numbers, and parameters whose indices are 32-bit integers
(`include/heyoka/param.hpp`, `param::m_index`). -/
def LeafArg (i : ℕ) : Expr K → Prop
  | .par k => k < 2 ^ 32
  | a => ArgOk i a

theorem LeafArg.ok {i : ℕ} {a : Expr K} (h : LeafArg i a) : ArgOk i a := by
  cases a with
  | par k => trivial
  | _ => exact h

theorem LeafArg.mk {i : ℕ} {a : Expr K} (h : ArgOk i a) (hp : ∀ k, a = .par k → k < 2 ^ 32) : LeafArg i a := by
  cases a with
  | par k => exact hp k rfl
  | _ => exact h

/-- The element `i` of a decomposition with `n` variables. -/
structure SElemOk (L : Fn K → Prop) (n i : ℕ) (e : TElem K) : Prop where
  deps : ∀ d ∈ e.2, d < n
  ok : (∃ f es, e.1 = .fn f es ∧ (∀ a ∈ es, LeafArg i a) ∧ TShape L f es ∧ e.2.length = depCount f) ∨ ∃ m, e.1 = .num m

/-- A well-formed decomposition. -/
structure SSysOk (L : Fn K → Prop) (neq : ℕ) (dc : TDc K) (svf : List ℕ) : Prop where
  len : neq + neq ≤ dc.length
  vars : ∀ (i : ℕ) (e : TElem K), dc[i]? = some e → i < neq → e.2 = []
  elem : ∀ (i : ℕ) (e : TElem K), dc[i]? = some e → neq ≤ i → i < dc.length - neq →
    SElemOk L (dc.length - neq) i e
  outs : ∀ (i : ℕ) (e : TElem K), i < neq → dc[dc.length - neq + i]? = some e → e.2 = [] ∧
    ArgOk (dc.length - neq) e.1
  svf : ∀ u ∈ svf, u < dc.length - neq

variable {i n n' neq : ℕ} {π : ℕ → ℕ}

theorem SElemOk.renameIn {e : TElem K} (h : SElemOk L n i e) {ren : List (String × String)}
    (hr : ∀ j < i, ren.lookup (uname j) = some (uname (π j))) : Sym.renameIn ren e.1 = reElem π e.1 := by
  rcases h.ok with ⟨f, es, he, ha, -⟩ | ⟨m, he⟩
  · rw [he, renameIn_fn (fun a hm => (ha a hm).ok) hr]; rfl
  · rw [he]; rfl

theorem SElemOk.reElem_congr {e : TElem K} (h : SElemOk L n i e) {π' : ℕ → ℕ} (hp : ∀ j < i, π' j = π j) :
    reElem π' e.1 = reElem π e.1 := by
  rcases h.ok with ⟨f, es, he, ha, -⟩ | ⟨m, he⟩
  · rw [he, reElem, reElem]
    congr 1
    refine List.map_congr_left fun a hm => ?_
    have := ha a hm
    cases a with
    | var s =>
      obtain ⟨j, hj, rfl⟩ := this
      simp [reArg, hp j hj]
    | _ => rfl
  · rw [he]; rfl

theorem SElemOk.reidx {e : TElem K} (h : SElemOk L n i e) (hn : ∀ j < n, π j < n')
    (hr : ∀ j, ReadsVar e.1 j → π j < π i) : SElemOk L n' (π i) (reElem π e.1, e.2.map π) := by
  refine ⟨?_, ?_⟩
  · intro d hd
    obtain ⟨d0, h1, rfl⟩ := List.mem_map.1 hd
    exact hn _ (h.deps d0 h1)
  · rcases h.ok with ⟨f, es, he, ha, hs, hd⟩ | ⟨m, he⟩
    · refine .inl ⟨f, es.map (reArg π), by rw [he]; rfl, ?_, hs.map fun m => rfl, by simpa using hd⟩
      intro a hm
      obtain ⟨b, hb, rfl⟩ := List.mem_map.1 hm
      refine .mk (argOk_reArg (ha b hb).ok fun j hj => hr j ⟨f, es, he, hj ▸ hb⟩) fun k hk => ?_
      have hbk : b = .par k := by cases b <;> simp_all [reArg]
      subst hbk
      exact ha _ hb
    · exact .inr ⟨m, by simp [he, reElem, reArg]⟩

variable [Field K] [LinearOrder K] [FloorRing K] [Interp K] [FmtName K]

/-! ### Elimination of common subexpressions -/

/-- What holds when the first `i` elements of `dc` have been processed: `π` are the new indices of the old elements,
`ι` the old indices of the new elements. -/
structure SCseInv (neq : ℕ) (dc : TDc K) (i : ℕ) (ret : TDc K)
    (exMap : List (Expr K × ℕ)) (ren : List (String × String)) (π ι : ℕ → ℕ) : Prop where
  ren : ∀ j < i, ren.lookup (uname j) = some (uname (π j))
  lt : ∀ j < i, π j < ret.length
  len : ret.length ≤ i
  neq_le : neq ≤ ret.length
  sec : ∀ k < ret.length, ι k < i ∧ π (ι k) = k
  var : ∀ k < neq, ι k = k ∧ π k = k ∧ ret[k]? = dc[k]?
  elem : ∀ (k : ℕ) (e' : TElem K), neq ≤ k → ret[k]? = some e' → neq ≤ ι k ∧
    ∃ e, dc[ι k]? = some e ∧ e' = (reElem π e.1, e.2) ∧ ∀ j < ι k, π j < k
  map : ∀ p ∈ exMap, neq ≤ p.2 ∧ ∃ ds, ret[p.2]? = some (p.1, ds)

theorem stcseLoop_inv {dc : TDc K} (es : TDc K) :
    ∀ (i : ℕ) (ret : TDc K) (exMap : List (Expr K × ℕ)) (ren : List (String × String)) (π ι : ℕ → ℕ),
      (∀ (i : ℕ) (e : TElem K), dc[i]? = some e → neq ≤ i → i < n → SElemOk L n i e) →
      (∀ (k : ℕ) (e : TElem K), es[k]? = some e → dc[i + k]? = some e) → neq ≤ i → i + es.length = n →
      SCseInv neq dc i ret exMap ren π ι →
      ∃ m π' ι', SCseInv neq dc n (tcseLoop i ret exMap ren es).1 m (tcseLoop i ret exMap ren es).2 π' ι' := by
  induction es with
  | nil =>
    intro i ret exMap ren π ι _ _ _ hl h
    exact ⟨exMap, π, ι, by rw [tcseLoop]; simpa using (by simpa using hl : i = n) ▸ h⟩
  | cons e es ih =>
    intro i ret exMap ren π ι hdc hes hi hl h
    simp only [List.length_cons] at hl
    have he0 : dc[i]? = some e := by simpa using hes 0 e rfl
    have heok := hdc i e he0 hi (by omega)
    have hes' : ∀ (k : ℕ) (e : TElem K), es[k]? = some e → dc[i + 1 + k]? = some e := fun k e' he' => by
      have := hes (k + 1) e' (by simpa using he')
      rwa [show i + (k + 1) = i + 1 + k by omega] at this
    have hren : renameIn ren e.1 = reElem π e.1 := heok.renameIn h.ren
    have hπ : ∀ (k : ℕ) {j : ℕ}, j < i → Function.update π i k j = π j := fun k j hj =>
      Function.update_of_ne (by omega) _ _
    -- the facts common to the two cases
    have hlook : ∀ (k j : ℕ), j < i + 1 →
        ((uname i, uname k) :: ren).lookup (uname j) = some (uname (Function.update π i k j)) := by
      intro k j hj
      rw [List.lookup_cons]
      rcases Nat.lt_or_ge j i with hlt | hge
      · have : (uname j == uname i) = false := by
          simp only [beq_eq_false_iff_ne, ne_eq, uname_eq_iff]; omega
        rw [this, hπ k hlt]
        exact h.ren j hlt
      · obtain rfl : j = i := by omega
        simp
    have hre : ∀ (k i' : ℕ) (e' : TElem K), i' < i → neq ≤ i' → dc[i']? = some e' →
        reElem (Function.update π i k) e'.1 = reElem π e'.1 := fun k i' e' hi' hn he' =>
      (hdc i' e' he' hn (by omega)).reElem_congr fun j hj => hπ k (by omega)
    rw [tcseLoop]
    simp only [hren]
    cases hfind : exMap.find? fun p => !p.1.blt (reElem π e.1) && !(reElem π e.1).blt p.1 with
    | some p =>
      simp only []
      obtain ⟨hp, hbeq⟩ := find_equiv hfind
      obtain ⟨hp1, ds, hp2⟩ := h.map p hp
      have hlt : p.2 < ret.length := (List.getElem?_eq_some_iff.1 hp2).1
      refine ih (i + 1) ret exMap _ (Function.update π i p.2) ι hdc hes' (by omega) (by omega)
        ⟨hlook p.2, ?_, by have := h.len; omega, h.neq_le, ?_, ?_, ?_, h.map⟩
      · intro j hj
        rcases Nat.lt_or_ge j i with hj' | hge
        · rw [hπ _ hj']; exact h.lt j hj'
        · obtain rfl : j = i := by omega
          simpa using hlt
      · intro k hk
        obtain ⟨h1, h2⟩ := h.sec k hk
        exact ⟨by omega, by rw [hπ _ h1, h2]⟩
      · intro k hk
        obtain ⟨h1, h2, h3⟩ := h.var k hk
        exact ⟨h1, by rw [hπ _ (by omega), h2], h3⟩
      · intro k e' hk hk'
        obtain ⟨h1, e0, h2, h3, h4⟩ := h.elem k e' hk hk'
        have h5 := (h.sec k ((List.getElem?_eq_some_iff.1 hk').1)).1
        refine ⟨h1, e0, h2, by rw [hre _ _ _ h5 h1 h2, h3], fun j hj => ?_⟩
        rw [hπ _ (by omega)]; exact h4 j hj
    | none =>
      simp only []
      have hι : ∀ {k : ℕ}, k < ret.length → Function.update ι ret.length i k = ι k := fun hk =>
        Function.update_of_ne (by omega) _ _
      refine ih (i + 1) (ret ++ [(reElem π e.1, e.2)]) _ _ (Function.update π i ret.length)
        (Function.update ι ret.length i) hdc hes' (by omega) (by omega)
        ⟨hlook ret.length, ?_, by have := h.len; simp; omega, by have := h.neq_le; simp; omega, ?_, ?_, ?_, ?_⟩
      · intro j hj
        rw [List.length_append, List.length_singleton]
        rcases Nat.lt_or_ge j i with hj' | hge
        · rw [hπ _ hj']; have := h.lt j hj'; omega
        · obtain rfl : j = i := by omega
          simp
      · intro k hk
        rw [List.length_append, List.length_singleton] at hk
        rcases Nat.lt_or_ge k ret.length with hk' | hge
        · obtain ⟨h1, h2⟩ := h.sec k hk'
          rw [hι hk']
          exact ⟨by omega, by rw [hπ _ h1, h2]⟩
        · obtain rfl : k = ret.length := by omega
          simp
      · intro k hk
        obtain ⟨h1, h2, h3⟩ := h.var k hk
        have hkr : k < ret.length := by have := h.neq_le; omega
        exact ⟨by rw [hι hkr, h1], by rw [hπ _ (by omega), h2], by rw [List.getElem?_append_left hkr, h3]⟩
      · intro k e' hk hk'
        rcases getElem?_snoc hk' with ⟨hlt, hk'⟩ | ⟨rfl, rfl⟩
        · obtain ⟨h1, e0, h2, h3, h4⟩ := h.elem k e' hk hk'
          have h5 := (h.sec k ((List.getElem?_eq_some_iff.1 hk').1)).1
          rw [hι hlt]
          refine ⟨h1, e0, h2, by rw [hre _ _ _ h5 h1 h2, h3], fun j hj => ?_⟩
          rw [hπ _ (by omega)]; exact h4 j hj
        · rw [Function.update_self]
          refine ⟨hi, e, he0, ?_, fun j hj => ?_⟩
          · rw [heok.reElem_congr fun j hj => hπ ret.length hj]
          · rw [hπ _ hj]; exact h.lt j hj
      · intro p hp
        rcases List.mem_cons.1 hp with rfl | hp
        · exact ⟨h.neq_le, e.2, by simp⟩
        · obtain ⟨h1, ds, h2⟩ := h.map p hp
          exact ⟨h1, ds, by rw [List.getElem?_append_left (List.getElem?_eq_some_iff.1 h2).1]; exact h2⟩

variable {dc : TDc K} {svf : List ℕ}

/-- A decomposition obtained by a change of the indices: the elements `mid` in the new order, and the outputs. -/
theorem SSysOk.of_reidx (h : SSysOk L neq dc svf) {ret : TDc K} {ι : ℕ → ℕ}
    (hneq : neq ≤ ret.length) (hn : ∀ j < dc.length - neq, π j < ret.length)
    (hvar : ∀ (k : ℕ) (e' : TElem K), k < neq → ret[k]? = some e' → e'.2 = [])
    (helem : ∀ (k : ℕ) (e' : TElem K), neq ≤ k → ret[k]? = some e' → ι k < dc.length - neq ∧ π (ι k) = k ∧
      neq ≤ ι k ∧ ∃ e, dc[ι k]? = some e ∧ e' = (reElem π e.1, e.2) ∧ ∀ j, ReadsVar e.1 j → π j < k) :
    SSysOk L neq
      ((ret ++ (tOuts neq dc).map fun e => (reElem π e.1, e.2)).map fun e => (e.1, e.2.map π)) (svf.map π) := by
  have hol : (tOuts neq dc).length = neq := by rw [tOuts, List.length_drop]; have := h.len; omega
  have hlen : ((ret ++ (tOuts neq dc).map fun e => (reElem π e.1, e.2)).map fun e => (e.1, e.2.map π)).length - neq =
      ret.length := by simp [hol]
  refine ⟨by simp [hol, hneq], ?_, ?_, ?_, ?_⟩
  · intro i e he hi
    rw [List.getElem?_map, List.getElem?_append_left (by omega), Option.map_eq_some_iff] at he
    obtain ⟨e', h1, rfl⟩ := he
    simp [hvar i e' hi h1]
  · intro i e he hi hi'
    rw [hlen] at hi' ⊢
    rw [List.getElem?_map, List.getElem?_append_left hi', Option.map_eq_some_iff] at he
    obtain ⟨e', h1, rfl⟩ := he
    obtain ⟨h2, h3, h4, e0, h5, rfl, h6⟩ := helem i e' hi h1
    have := (h.elem _ e0 h5 h4 h2).reidx (π := π) hn (by rw [h3]; exact h6)
    rwa [h3] at this
  · intro i e hi he
    rw [hlen] at he ⊢
    rw [List.getElem?_map, List.getElem?_append_right (by omega), Nat.add_sub_cancel_left, List.getElem?_map,
      Option.map_map, Option.map_eq_some_iff] at he
    obtain ⟨e', h1, rfl⟩ := he
    obtain ⟨h2, h3⟩ := h.outs i e' hi (tOuts_get h1)
    have hre : reElem π e'.1 = reArg π e'.1 := by
      cases hq : e'.1 with
      | fn f as => rw [hq] at h3; exact absurd h3 (by simp [ArgOk])
      | _ => rfl
    simp only [Function.comp, hre]
    refine ⟨by simp [h2], argOk_reArg h3 fun j hj => ?_⟩
    rw [hj] at h3
    obtain ⟨k, hk, hkj⟩ := h3
    rw [uname_inj hkj]
    exact hn k hk
  · rw [hlen]
    intro u hu
    obtain ⟨u0, h1, rfl⟩ := List.mem_map.1 hu
    exact hn _ (h.svf u0 h1)

theorem SSysOk.dep_lt (h : SSysOk L neq dc svf) {e : TElem K} (he : e ∈ dc) : ∀ d ∈ e.2,
    d < dc.length - neq := by
  have hl := h.len
  obtain ⟨i, hi⟩ := List.mem_iff_getElem?.1 he
  have hilt := (List.getElem?_eq_some_iff.1 hi).1
  rcases Nat.lt_or_ge i neq with h1 | h1
  · rw [h.vars i e hi h1]; simp
  · rcases Nat.lt_or_ge i (dc.length - neq) with h2 | h2
    · exact (h.elem i e hi h1 h2).deps
    · rw [(h.outs (i - (dc.length - neq)) e (by omega) (by rw [Nat.add_sub_cancel' h2]; exact hi)).1]; simp

/-- The elimination of common subexpressions. -/
theorem stcse_ok (h : SSysOk L neq dc svf) (hb : dc.length ≤ 2 ^ 32) :
    ∃ dc' svf', tcse neq dc svf = .ok (dc', svf') ∧ dc'.length ≤ dc.length ∧
      SSysOk L neq dc' svf' := by
  have hlen := h.len
  have htl : (dc.take neq).length = neq := by rw [List.length_take]; omega
  have hml : (tMid neq dc).length = dc.length - neq - neq := by simp [tMid]
  have hinit : SCseInv neq dc neq (dc.take neq) []
      ((List.range neq).map fun i => (uname i, uname i)) id id := by
    refine ⟨fun j hj => lookup_range hj, fun j hj => by rw [htl]; exact hj, by omega, by omega, ?_,
      fun k hk => ⟨rfl, rfl, by rw [List.getElem?_take_of_lt hk]⟩, ?_, by simp⟩
    · intro k hk; rw [htl] at hk; exact ⟨hk, rfl⟩
    · intro k e' hk hk'
      rw [List.getElem?_eq_none (by omega)] at hk'
      cases hk'
  obtain ⟨m, π, ι, hc⟩ := stcseLoop_inv (n := dc.length - neq) (tMid neq dc) neq (dc.take neq) []
    _ id id h.elem (fun k e hk => by
      rw [tMid, List.getElem?_take] at hk
      split at hk
      · rwa [List.getElem?_drop] at hk
      · cases hk) (le_refl _) (by omega) hinit
  rw [tcse]
  generalize tcseLoop neq (dc.take neq) [] ((List.range neq).map fun i => (uname i, uname i)) (tMid neq dc) = r at hc ⊢
  obtain ⟨ret, ren⟩ := r
  simp only at hc ⊢
  have hlt32 : ∀ d < dc.length - neq, ren.lookup (uname d) = some (uname (π d)) ∧ π d < 2 ^ 32 := fun d hd =>
    ⟨hc.ren d hd, by have := hc.lt d hd; have := hc.len; omega⟩
  have houts : (tOuts neq dc).map (fun e => (renameIn ren e.1, e.2)) =
      (tOuts neq dc).map fun e => (reElem π e.1, e.2) := by
    refine List.map_congr_left fun e he => ?_
    obtain ⟨k, hk⟩ := List.mem_iff_getElem?.1 he
    have hkn : k < neq := by
      have := (List.getElem?_eq_some_iff.1 hk).1
      rw [tOuts, List.length_drop] at this; omega
    obtain ⟨-, h3⟩ := h.outs k e hkn (tOuts_get hk)
    rw [renameIn_arg h3 hc.ren]
    cases hq : e.1 with
    | fn f as => rw [hq] at h3; exact absurd h3 (by simp [ArgOk])
    | _ => rfl
  rw [houts]
  have hmem : ∀ e ∈ ret ++ (tOuts neq dc).map (fun e => (reElem π e.1, e.2)), ∀ d ∈ e.2, d < dc.length - neq := by
    intro e he
    rcases List.mem_append.1 he with he | he
    · obtain ⟨k, hk⟩ := List.mem_iff_getElem?.1 he
      rcases Nat.lt_or_ge k neq with h1 | h1
      · rw [(hc.var k h1).2.2] at hk
        exact h.dep_lt (List.mem_of_getElem? hk)
      · obtain ⟨-, e0, h2, rfl, -⟩ := hc.elem k e h1 hk
        exact h.dep_lt (e := e0) (List.mem_of_getElem? h2)
    · obtain ⟨e0, h1, rfl⟩ := List.mem_map.1 he
      exact h.dep_lt (e := e0) (List.mem_of_mem_drop h1)
  rw [remapDeps_ok (π := π) fun e he d hd => hlt32 d (hmem e he d hd), Res.bind_ok,
    remapIdx_ok (π := π) fun d hd => hlt32 d (h.svf d hd), Res.bind_ok]
  refine ⟨_, _, rfl, ?_, h.of_reidx (ι := ι) hc.neq_le hc.lt ?_ ?_⟩
  · have := hc.len
    simp [tOuts]
    omega
  · intro k e' hk he'
    rw [(hc.var k hk).2.2] at he'
    exact h.vars k e' he' hk
  · intro k e' hk he'
    have hkr := (List.getElem?_eq_some_iff.1 he').1
    obtain ⟨h1, h2⟩ := hc.sec k hkr
    obtain ⟨h3, e0, h4, h5, h6⟩ := hc.elem k e' hk he'
    refine ⟨h1, h2, h3, e0, h4, h5, fun j hj => h6 j ?_⟩
    obtain ⟨f, es, he, hv⟩ := hj
    rcases (h.elem _ e0 h4 h3 h1).ok with ⟨f', es', he', ha, -⟩ | ⟨m, he'⟩
    · rw [he] at he'
      simp only [Expr.fn.injEq] at he'
      obtain ⟨rfl, rfl⟩ := he'
      obtain ⟨l, hl, hl'⟩ := ha _ hv
      rw [uname_inj hl']
      exact hl
    · rw [he] at he'; cases he'

/-! ### The sort -/

theorem SSysOk.renameIn_out (h : SSysOk L neq dc svf) {ren : List (String × String)}
    (hr : ∀ j < dc.length - neq, ren.lookup (uname j) = some (uname (π j))) {e : TElem K} (he : e ∈ tOuts neq dc) :
    renameIn ren e.1 = reElem π e.1 := by
  have hlen := h.len
  obtain ⟨k, hk⟩ := List.mem_iff_getElem?.1 he
  have hkn : k < neq := by
    have := (List.getElem?_eq_some_iff.1 hk).1
    rw [tOuts, List.length_drop] at this; omega
  obtain ⟨-, h3⟩ := h.outs k e hkn (tOuts_get hk)
  rw [renameIn_arg h3 hr]
  cases hq : e.1 with
  | fn f as => rw [hq] at h3; exact absurd h3 (by simp [ArgOk])
  | _ => rfl

/-- The sort: with enough fuel it ends, and whenever it ends the result is a decomposition of the same system. -/
theorem stsort_ok (h : SSysOk L neq dc svf) (hb : dc.length ≤ 2 ^ 32) (fuel : ℕ) :
    (∀ r, tsort fuel neq dc svf = some r → ∃ dc' svf', r = .ok (dc', svf') ∧ dc'.length = dc.length ∧
      SSysOk L neq dc' svf') ∧
    (dc.length + 1 ≤ fuel → ∃ r, tsort fuel neq dc svf = some r) := by
  have hlen := h.len
  have hxl : (((dc.take (dc.length - neq)).map Prod.fst).map numFn).length = dc.length - neq := by simp
  have hget : ∀ i < dc.length - neq, (((dc.take (dc.length - neq)).map Prod.fst).map numFn)[i]? =
      dc[i]?.map fun e => numFn e.1 := by
    intro i hi
    rw [List.map_map, List.getElem?_map, List.getElem?_take_of_lt hi]
    rfl
  have hwf : WF (fun _ => True) neq (((dc.take (dc.length - neq)).map Prod.fst).map numFn) := by
    refine ⟨by rw [hxl]; omega, ?_⟩
    intro i e he hi
    have hi' : i < dc.length - neq := by
      have := (List.getElem?_eq_some_iff.1 he).1
      rwa [hxl] at this
    rw [hget i hi', Option.map_eq_some_iff] at he
    obtain ⟨e0, h1, rfl⟩ := he
    rcases (h.elem i e0 h1 hi hi').ok with ⟨f, es, h2, ha, -⟩ | ⟨m, h2⟩
    · rw [h2]; exact ⟨f, es, rfl, trivial, fun a hm => (ha a hm).ok⟩
    · rw [h2]; exact ⟨.numId, [.num m], rfl, trivial, by simp [ArgOk]⟩
  obtain ⟨es, h1, h2, h3⟩ := kahn_reorder hwf (by omega) fuel
  rw [hxl] at h2 h3
  rw [graphEdges_numFn] at h1
  unfold tsort
  simp only [h1]
  constructor
  · intro r hr
    cases hk : kahnLoop fuel es [0] [] with
    | none => rw [hk] at hr; cases hr
    | some p =>
      obtain ⟨h4, h5, h6, h7⟩ := h2 p hk
      obtain ⟨res, es'⟩ := p
      simp only at h4 h5 h6 h7
      rw [hk] at hr
      simp only at hr
      generalize res.tail.map (· - 1) = idx at h6 h7 hr
      have hidx : ∀ i ∈ idx, i < dc.length - neq := fun i hi => List.mem_range.1 (h6.perm.mem_iff.1 hi)
      have hfm := filterMap_get (dc := dc) (idx := idx) (fun i hi => by have := hidx i hi; omega)
      rw [if_neg (by simp [h4, h5]), if_neg (fun hc => hc h6.vars), if_neg (by rw [hfm.1, h6.length]; simp),
        Option.some.injEq] at hr
      -- the inverse of the permutation
      have hex : ∀ j, ∃ k, j < dc.length - neq → k < dc.length - neq ∧ idx[k]? = some j := by
        intro j
        by_cases hj : j < dc.length - neq
        · obtain ⟨k, hk⟩ := h6.exists_pos hj
          exact ⟨k, fun _ => hk⟩
        · exact ⟨0, fun h => absurd h hj⟩
      choose π hπ using hex
      have hιe : ∀ k, ∃ j, k < dc.length - neq → idx[k]? = some j := by
        intro k
        by_cases hk : k < dc.length - neq
        · exact ⟨idx[k]'(by rw [h6.length]; exact hk), fun _ => by simp⟩
        · exact ⟨0, fun h => absurd h hk⟩
      choose ι hι using hιe
      have hιlt : ∀ k < dc.length - neq, ι k < dc.length - neq := fun k hk =>
        hidx _ (List.mem_of_getElem? (hι k hk))
      have hιπ : ∀ j < dc.length - neq, ι (π j) = j := fun j hj =>
        Option.some.inj ((hι _ (hπ j hj).1).symm.trans (hπ j hj).2)
      have hπι : ∀ k < dc.length - neq, π (ι k) = k := fun k hk =>
        h6.inj ((hπ _ (hιlt k hk)).2) (hι k hk)
      have hvarι : ∀ k < neq, ι k = k := fun k hk =>
        Option.some.inj ((hι k (by omega)).symm.trans (h6.getElem_var hk))
      have hren : ∀ j < dc.length - neq, (idx.zipIdx.map fun p => (uname p.1, uname p.2)).lookup (uname j) =
          some (uname (π j)) := by
        intro j hj
        refine lookup_of_nodup ?_ (List.mem_map.2 ⟨(j, π j), ?_, rfl⟩)
        · rw [List.map_map]
          have : (Prod.fst ∘ fun p : ℕ × ℕ => (uname p.1, uname p.2)) = uname ∘ Prod.fst := rfl
          rw [this, ← List.map_map, zipIdx_fst]
          exact h6.nodup.map fun a b hab => uname_inj hab
        · exact List.mem_of_getElem? (zipIdx_getElem? (hπ j hj).2)
      have hlt32 : ∀ d < dc.length - neq, (idx.zipIdx.map fun p => (uname p.1, uname p.2)).lookup (uname d) =
          some (uname (π d)) ∧ π d < 2 ^ 32 := fun d hd => ⟨hren d hd, by have := (hπ d hd).1; omega⟩
      generalize (idx.zipIdx.map fun p => (uname p.1, uname p.2)) = ren at hren hlt32 hr
      have hel : ∀ (k : ℕ) (e : TElem K), (idx.filterMap fun i => dc[i]?)[k]? = some e →
          k < dc.length - neq ∧ dc[ι k]? = some e := by
        intro k e he
        have hk : k < dc.length - neq := by
          have := (List.getElem?_eq_some_iff.1 he).1
          rwa [hfm.1, h6.length] at this
        rw [hfm.2, hι k hk] at he
        exact ⟨hk, he⟩
      have hneqι : ∀ k, neq ≤ k → k < dc.length - neq → neq ≤ ι k := by
        intro k hk hk'
        by_contra hc
        have h8 := hvarι (ι k) (by omega)
        have h9 := hπι k hk'
        have h10 := hπι (ι k) (hιlt k hk')
        rw [h8, h9] at h10
        omega
      have hvπ : ∀ j < neq, π j = j := fun j hj => by
        have := hπι j (by omega)
        rwa [hvarι j hj] at this
      have hmap : ((idx.filterMap fun i => dc[i]?) ++ tOuts neq dc).map (fun e => (renameIn ren e.1, e.2)) =
          (idx.filterMap fun i => dc[i]?).map (fun e => (renameIn ren e.1, e.2)) ++
            (tOuts neq dc).map fun e => (reElem π e.1, e.2) := by
        rw [List.map_append]
        congr 1
        exact List.map_congr_left fun e he => by rw [h.renameIn_out hren he]
      rw [hmap] at hr
      have hmem : ∀ e ∈ (idx.filterMap fun i => dc[i]?).map (fun e => (renameIn ren e.1, e.2)) ++
          (tOuts neq dc).map (fun e => (reElem π e.1, e.2)), ∀ d ∈ e.2, d < dc.length - neq := by
        intro e he
        rcases List.mem_append.1 he with he | he
        · obtain ⟨e0, h8, rfl⟩ := List.mem_map.1 he
          obtain ⟨k, hk⟩ := List.mem_iff_getElem?.1 h8
          exact h.dep_lt (e := e0) (List.mem_of_getElem? (hel k e0 hk).2)
        · obtain ⟨e0, h1, rfl⟩ := List.mem_map.1 he
          exact h.dep_lt (e := e0) (List.mem_of_mem_drop h1)
      rw [remapDeps_ok (π := π) fun e he d hd => hlt32 d (hmem e he d hd), Res.bind_ok,
        remapIdx_ok (π := π) fun d hd => hlt32 d (h.svf d hd),
        Res.bind_ok] at hr
      have hl1 : ((idx.filterMap fun i => dc[i]?).map (fun e => (renameIn ren e.1, e.2))).length = dc.length - neq := by
        rw [List.length_map, hfm.1, h6.length]
      refine ⟨_, _, hr.symm, ?_, h.of_reidx (ι := ι) (by rw [hl1]; omega)
        (fun j hj => by rw [hl1]; exact (hπ j hj).1) ?_ ?_⟩
      · simp only [List.length_map, List.length_append, hfm.1, h6.length, tOuts, List.length_drop]
        omega
      · intro k e' hk he'
        rw [List.getElem?_map, Option.map_eq_some_iff] at he'
        obtain ⟨e0, h8, rfl⟩ := he'
        have h9 := (hel k e0 h8).2
        rw [hvarι k hk] at h9
        exact h.vars k e0 h9 hk
      · intro k e' hk he'
        rw [List.getElem?_map, Option.map_eq_some_iff] at he'
        obtain ⟨e0, h8, rfl⟩ := he'
        obtain ⟨h9, h10⟩ := hel k e0 h8
        refine ⟨hιlt k h9, hπι k h9, hneqι k hk h9, e0, h10, ?_, ?_⟩
        · rw [(h.elem _ e0 h10 (hneqι k hk h9) (hιlt k h9)).renameIn fun j hj =>
            hren j (by have := hιlt k h9; omega)]
        rintro j ⟨f, es, he, hv⟩
        obtain ⟨l, hl, hl'⟩ := h7 k (ι k) f es j (hneqι k hk h9) (hι k h9)
          (by rw [hget _ (hιlt k h9), h10, Option.map_some, he]; rfl) hv
        have hll : l < dc.length - neq := by omega
        have : ι l = j := Option.some.inj ((hι l hll).symm.trans hl')
        rw [← this, hπι l hll]
        exact hl
  · intro hf
    obtain ⟨⟨res, es'⟩, hr⟩ := h3 (by omega)
    rw [hr]
    simp only
    split
    · exact ⟨_, rfl⟩
    · split
      · exact ⟨_, rfl⟩
      · split <;> exact ⟨_, rfl⟩

/-! ### The final passes -/

theorem SElemOk.sincos {e : TElem K} (h : SElemOk L n i e) (sa ca : List (Expr K)) :
    SElemOk L n i (sincosElem sa ca e.1, e.2) := by
  refine ⟨h.deps, ?_⟩
  rcases h.ok with ⟨f, es, he, hp⟩ | ⟨m, he⟩
  · refine .inl ?_
    simp only [he]
    unfold sincosElem
    split
    · rename_i b a heq
      cases heq
      split_ifs
      · exact ⟨_, _, rfl, hp⟩
      · exact ⟨_, _, rfl, hp⟩
    · rename_i b a heq
      cases heq
      split_ifs
      · exact ⟨_, _, rfl, hp⟩
      · exact ⟨_, _, rfl, hp⟩
    · exact ⟨_, _, rfl, hp⟩
  · refine .inr ⟨m, ?_⟩
    simp only [he]
    rfl

theorem stsincos_ok (h : SSysOk L neq dc svf) :
    SSysOk L neq (tsincos dc) svf := by
  have hl : (tsincos dc).length = dc.length := by simp [tsincos]
  have hg : ∀ (i : ℕ) (e : TElem K), (tsincos dc)[i]? = some e → ∃ e0, dc[i]? = some e0 ∧
      e = (sincosElem (sinArgs (dc.map Prod.fst)) (cosArgs (dc.map Prod.fst)) e0.1, e0.2) := by
    intro i e he
    rw [tsincos, List.getElem?_map, Option.map_eq_some_iff] at he
    obtain ⟨e0, h1, h2⟩ := he
    exact ⟨e0, h1, h2.symm⟩
  refine ⟨by rw [hl]; exact h.len, ?_, ?_, ?_, by rw [hl]; exact h.svf⟩
  · intro i e he hi
    obtain ⟨e0, h1, rfl⟩ := hg i e he
    exact h.vars i e0 h1 hi
  · intro i e he hi hi'
    rw [hl] at hi' ⊢
    obtain ⟨e0, h1, rfl⟩ := hg i e he
    exact (h.elem i e0 h1 hi hi').sincos _ _
  · intro i e hi he
    rw [hl] at he ⊢
    obtain ⟨e0, h1, rfl⟩ := hg _ e he
    have h2 := h.outs i e0 hi h1
    have : sincosElem (sinArgs (dc.map Prod.fst)) (cosArgs (dc.map Prod.fst)) e0.1 = e0.1 := by
      refine sincosElem_notFn _ _ ?_
      cases hq : e0.1 with
      | fn f as => rw [hq] at h2; exact absurd h2.2 (by simp [ArgOk])
      | _ => rfl
    rw [this]
    exact h2

theorem sreplaceNumber_ok {e : TElem K} (h : SElemOk L n i e) :
    SElemOk L n i (replaceNumber e) ∧ ∃ f es, (replaceNumber e).1 = .fn f es := by
  obtain ⟨e, ds⟩ := e
  rcases h.ok with ⟨f, es, he, hp⟩ | ⟨m, he⟩
  · simp only at he
    subst he
    exact ⟨h, f, es, rfl⟩
  · simp only at he
    subst he
    exact ⟨⟨by simp [replaceNumber], .inl ⟨.numId, [.num m], rfl, by simp [LeafArg, ArgOk], ⟨m, rfl⟩, rfl⟩⟩, _, _, rfl⟩

/-- After the replacement of the numbers all elements are functions. -/
theorem sreplaceNumbers_ok (h : SSysOk L neq dc svf) :
    SSysOk L neq (replaceNumbers neq dc) svf ∧
    ∀ (i : ℕ) (e : TElem K), (replaceNumbers neq dc)[i]? = some e → neq ≤ i →
      i < (replaceNumbers neq dc).length - neq → ∃ f es, e.1 = .fn f es := by
  obtain ⟨h1, h2, h3, h4⟩ := replaceNumbers_get h.len
  refine ⟨⟨by rw [h1]; exact h.len, ?_, ?_, ?_, by rw [h1]; exact h.svf⟩, ?_⟩
  · intro i e he hi
    rw [h2 i hi] at he
    exact h.vars i e he hi
  · intro i e he hi hi'
    rw [h1] at hi' ⊢
    rw [h3 i hi hi', Option.map_eq_some_iff] at he
    obtain ⟨e0, h5, rfl⟩ := he
    exact (sreplaceNumber_ok (h.elem i e0 h5 hi hi')).1
  · intro i e hi he
    rw [h1] at he ⊢
    rw [h4 _ (by omega)] at he
    exact h.outs i e hi he
  · intro i e he hi hi'
    rw [h1] at hi'
    rw [h3 i hi hi', Option.map_eq_some_iff] at he
    obtain ⟨e0, h5, rfl⟩ := he
    exact (sreplaceNumber_ok (h.elem i e0 h5 hi hi')).2

/-- The passes after the construction of the decomposition. -/
theorem ssimplifySys_ok (h : SSysOk L neq dc svf) (hb : dc.length ≤ 2 ^ 32) (fuel : ℕ) :
    (∀ r, simplifySys fuel neq dc svf = some r → ∃ dc' svf', r = .ok (dc', svf') ∧ dc'.length ≤ dc.length ∧
      SSysOk L neq dc' svf' ∧
      ∀ (i : ℕ) (e : TElem K), dc'[i]? = some e → neq ≤ i → i < dc'.length - neq → ∃ f es, e.1 = .fn f es) ∧
    (dc.length + 1 ≤ fuel → ∃ r, simplifySys fuel neq dc svf = some r) := by
  obtain ⟨dc1, svf1, h1, h2, h3⟩ := stcse_ok h hb
  obtain ⟨h4, h5⟩ := stsort_ok h3 (by omega) fuel
  unfold simplifySys
  simp only [h1]
  constructor
  · intro r hr
    rw [Option.map_eq_some_iff] at hr
    obtain ⟨r1, h6, rfl⟩ := hr
    obtain ⟨dc2, svf2, rfl, h7, h8⟩ := h4 r1 h6
    have h9 := stsincos_ok h8
    obtain ⟨h10, h11⟩ := sreplaceNumbers_ok h9
    refine ⟨_, _, rfl, ?_, h10, h11⟩
    rw [(replaceNumbers_get h9.len).1]
    simp only [tsincos, List.length_map]
    omega
  · intro hf
    obtain ⟨r, hr⟩ := h5 (by omega)
    exact ⟨_, by rw [hr]; rfl⟩

end Heyoka.Taylor
