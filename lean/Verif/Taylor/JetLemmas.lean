import Verif.Taylor.Jet
import Verif.Taylor.Node2

/-!
# The jet along a curve
-/

open Filter Topology

namespace Heyoka.Taylor

open Heyoka.Sym

/-- The curves `F` satisfy the definition `e` of the `u` variable `i`. Its arguments are earlier variables, the
hidden dependencies are any of the `nu` variables. -/
structure ElemOk (F : ℕ → ℝ → ℝ) (t0 : ℝ) (par : ℕ → ℝ) (nu i : ℕ) (e : TElem ℝ) : Prop where
  ex : ∃ f es as, e.1 = .fn f es ∧ targs par es = .ok as ∧ (∀ j, .u j ∈ as → j < i) ∧
    (∀ d ∈ e.2, d < nu) ∧ ((∀ j, .u j ∈ as → SmoothAt (F j) t0) → Node F t0 i e.2 f as)

/-- The curve `x` satisfies `x' = e` at the orders below `N`, `e` being a number, a parameter or a `u` variable. -/
def OutOk (F : ℕ → ℝ → ℝ) (t0 : ℝ) (par : ℕ → ℝ) (nu N : ℕ) (x : ℝ → ℝ) (e : Expr ℝ) : Prop :=
  ∃ a y, targ par e = .ok a ∧ (∀ j, a = .u j → j < nu) ∧ (∀ t, argAt F t a = some (y t)) ∧
    ∀ k < N, ((k : ℝ) + 1) * tc x t0 (k + 1) = tc y t0 k

/-- The curves `F` are a solution, up to the order `N`, of the system with the decomposition `dc`. -/
structure Along (F : ℕ → ℝ → ℝ) (t0 : ℝ) (par : ℕ → ℝ) (neq N : ℕ) (dc : TDc ℝ) : Prop where
  len : neq + neq ≤ dc.length
  neq_pos : 0 < neq
  smooth : ∀ i < neq, SmoothAt (F i) t0
  elem : ∀ (i : ℕ) (e : TElem ℝ), dc[i]? = some e → neq ≤ i → i < dc.length - neq →
    ElemOk F t0 par (dc.length - neq) i e
  out : ∀ (i : ℕ) (e : TElem ℝ), i < neq → dc[dc.length - neq + i]? = some e →
    OutOk F t0 par (dc.length - neq) N (F i) e.1

variable {F : ℕ → ℝ → ℝ} {t0 : ℝ} {par : ℕ → ℝ} {neq N nu : ℕ} {dc : TDc ℝ}

/-- The contents of the array after `L` insertions. -/
noncomputable def expArr (F : ℕ → ℝ → ℝ) (t0 : ℝ) (nu L : ℕ) : List (V ℝ) :=
  (List.range L).map fun p => V.fin (tc (F (p % nu)) t0 (p / nu))

@[simp] theorem length_expArr (L : ℕ) : (expArr F t0 nu L).length = L := by simp [expArr]

theorem fetch_expArr {L u o : ℕ} (hu : u < nu) (h : o * nu + u < L) :
    fetch (expArr F t0 nu L) nu u o = .ok (V.fin (tc (F u) t0 o)) := by
  have h1 : (o * nu + u) % nu = u := by
    rw [Nat.add_comm, Nat.add_mul_mod_self_right, Nat.mod_eq_of_lt hu]
  have h2 : (o * nu + u) / nu = o := by
    rw [Nat.add_comm, Nat.add_mul_div_right _ _ (by omega), Nat.div_eq_of_lt hu, Nat.zero_add]
  rw [fetch, if_pos hu]
  simp [expArr, h, h1, h2]

theorem expArr_succ {o u : ℕ} (hu : u < nu) :
    expArr F t0 nu (o * nu + u) ++ [V.fin (tc (F u) t0 o)] = expArr F t0 nu (o * nu + (u + 1)) := by
  have h1 : (o * nu + u) % nu = u := by
    rw [Nat.add_comm, Nat.add_mul_mod_self_right, Nat.mod_eq_of_lt hu]
  have h2 : (o * nu + u) / nu = o := by
    rw [Nat.add_comm, Nat.add_mul_div_right _ _ (by omega), Nat.div_eq_of_lt hu, Nat.zero_add]
  rw [← Nat.add_assoc, expArr, expArr, List.range_succ]
  simp [h1, h2]

theorem elemDiff_ok {i o : ℕ} {e : TElem ℝ} (h : ElemOk F t0 par nu i e)
    (hs : ∀ j < i, SmoothAt (F j) t0) (hi : i < nu) :
    elemDiff par t0 (fetch (expArr F t0 nu (o * nu + i)) nu) o i e = .ok (V.fin (tc (F i) t0 o)) := by
  obtain ⟨f, es, as, he, ht, ha, hd, hn⟩ := h.ex
  have hn := hn fun j hj => hs j (ha j hj)
  simp only [elemDiff, he, ht, Res.bind_eq, Res.bind_ok]
  have key : ∀ u o', u < nu → (o' < o ∨ o' = o ∧ u < i) →
      fetch (expArr F t0 nu (o * nu + i)) nu u o' = .ok (V.fin (tc (F u) t0 o')) := by
    intro u o' hu ho
    refine fetch_expArr hu ?_
    rcases ho with ho | ⟨rfl, ho⟩
    · have : (o' + 1) * nu ≤ o * nu := Nat.mul_le_mul_right nu ho
      rw [Nat.succ_mul] at this
      omega
    · omega
  refine (node_goal hn).2 _ _ ⟨fun u hu o' ho => key u o' ?_ (.inl ho), fun u hu => key u o ?_ (.inr ⟨rfl, ha u hu⟩)⟩
  · rcases hu with rfl | hu | hu
    · exact hi
    · exact hd u hu
    · exact (ha u hu).trans hi
  · exact (ha u hu).trans hi

/-- Every `u` variable is smooth. -/
theorem Along.smooth_all (h : Along F t0 par neq N dc) : ∀ i < dc.length - neq, SmoothAt (F i) t0 := by
  intro i
  induction i using Nat.strong_induction_on with
  | _ i ih =>
    intro hi
    rcases Nat.lt_or_ge i neq with hlt | hge
    · exact h.smooth i hlt
    · obtain ⟨f, es, as, he, ht, ha, hd, hn⟩ := (h.elem i _ (List.getElem?_eq_getElem (by omega)) hge hi).ex
      exact (node_goal (hn fun j hj => ih j (ha j hj) ((ha j hj).trans hi))).1

theorem elemsDiff_ok {o : ℕ} (hs : ∀ j < nu, SmoothAt (F j) t0) (es : TDc ℝ) (i : ℕ)
    (he : ∀ (k : ℕ) (e : TElem ℝ), es[k]? = some e → ElemOk F t0 par nu (i + k) e) (hl : i + es.length ≤ nu) :
    elemsDiff par t0 nu o i es (expArr F t0 nu (o * nu + i))
      = .ok (expArr F t0 nu (o * nu + (i + es.length))) := by
  induction es generalizing i with
  | nil => rfl
  | cons e es ih =>
    simp only [List.length_cons] at hl
    rw [elemsDiff, elemDiff_ok (i := i) (he 0 e rfl) (fun j hj => hs j (by omega)) (by omega)]
    simp only [Res.bind_eq, Res.bind_ok]
    rw [expArr_succ (by omega), ih (i + 1) (fun k e hk => by
      have := he (k + 1) e (by simpa using hk)
      rwa [show i + (k + 1) = i + 1 + k by omega] at this) (by omega)]
    simp only [List.length_cons]
    congr 3
    omega

theorem svDiff_ok {o i L : ℕ} {e : Expr ℝ} (ho : o < N) (h : OutOk F t0 par nu N (F i) e)
    (hL : (o + 1) * nu ≤ L) :
    svDiff par (fetch (expArr F t0 nu L) nu) (o + 1) e = .ok (V.fin (tc (F i) t0 (o + 1))) := by
  obtain ⟨a, y, ha, hu, hv, hk⟩ := h
  have hk := hk o ho
  have hne : ((o : ℝ) + 1) ≠ 0 := by positivity
  have hx : tc (F i) t0 (o + 1) = tc y t0 o / (o + 1) := by
    rw [← hk]
    field_simp
  cases e with
  | fn f es => cases ha
  | num x =>
    cases ha
    have hc : ∀ t, x.toK? = some (y t) := hv
    have hy : y = fun _ => y t0 := by
      funext t
      have := hc t
      rw [hc t0] at this
      exact (Option.some.inj this).symm
    rw [svDiff]
    rw [hx, hy, tc_const, hc t0]
    rcases Nat.eq_zero_or_pos o with rfl | hp
    · simp
    · have : ¬ (o + 1 = 1) := by omega
      have h0 : ¬ o = 0 := by omega
      simp [this, h0, V.zero_def]
  | par j =>
    cases ha
    have hc : ∀ t, some (par j) = some (y t) := hv
    have hy : y = fun _ => par j := by
      funext t
      exact (Option.some.inj (hc t)).symm
    rw [svDiff, hx, hy, tc_const]
    rcases Nat.eq_zero_or_pos o with rfl | hp
    · simp
    · have : ¬ (o + 1 = 1) := by omega
      have h0 : ¬ o = 0 := by omega
      simp [this, h0, V.zero_def]
  | var s =>
    rw [targ] at ha
    rw [svDiff]
    cases hi : unameToIndex s with
    | throw => rw [hi] at ha; cases ha
    | ub => rw [hi] at ha; cases ha
    | ok j =>
      rw [hi] at ha
      cases ha
      have hj : j < nu := hu j rfl
      have hy : y = F j := by
        funext t
        exact (Option.some.inj (hv t)).symm
      simp only [Res.bind_eq, Res.bind_ok, Res.pure_eq, Nat.add_sub_cancel]
      rw [fetch_expArr hj (by rw [Nat.succ_mul] at hL; omega)]
      simp only [Res.bind_ok]
      rw [V.nat_def, V.fin_div_of_ne (by push_cast; exact hne), hx, hy]
      push_cast
      rfl

theorem svsDiff_ok {o : ℕ} (ho : o < N) (es : TDc ℝ) (i : ℕ)
    (he : ∀ (k : ℕ) (e : TElem ℝ), es[k]? = some e → OutOk F t0 par nu N (F (i + k)) e.1)
    (hl : i + es.length ≤ nu) :
    svsDiff par nu (o + 1) es (expArr F t0 nu ((o + 1) * nu + i))
      = .ok (expArr F t0 nu ((o + 1) * nu + (i + es.length))) := by
  induction es generalizing i with
  | nil => rfl
  | cons e es ih =>
    simp only [List.length_cons] at hl
    rw [svsDiff, svDiff_ok (i := i) ho (he 0 e rfl) (by omega)]
    simp only [Res.bind_eq, Res.bind_ok]
    rw [expArr_succ (by omega), ih (i + 1) (fun k e hk => by
      have := he (k + 1) e (by simpa using hk)
      rwa [show i + (k + 1) = i + 1 + k by omega] at this) (by omega)]
    simp only [List.length_cons]
    congr 3
    omega

theorem length_tMid (h : neq + neq ≤ dc.length) : (tMid neq dc).length = dc.length - neq - neq := by
  simp [tMid]

theorem length_tOuts (h : neq + neq ≤ dc.length) : (tOuts neq dc).length = neq := by
  simp [tOuts]
  omega

theorem tMid_get {k : ℕ} {e : TElem ℝ} (h : (tMid neq dc)[k]? = some e) :
    dc[neq + k]? = some e ∧ k < dc.length - neq - neq := by
  rw [tMid, List.getElem?_take] at h
  split at h
  · rw [List.getElem?_drop] at h
    exact ⟨h, by omega⟩
  · cases h

theorem Along.elemsOk (h : Along F t0 par neq N dc) (k : ℕ) (e : TElem ℝ) (hk : (tMid neq dc)[k]? = some e) :
    ElemOk F t0 par (dc.length - neq) (neq + k) e := by
  obtain ⟨h1, h2⟩ := tMid_get hk
  exact h.elem _ e h1 (by omega) (by omega)

theorem Along.outsOk (h : Along F t0 par neq N dc) (k : ℕ) (e : TElem ℝ) (hk : (tOuts neq dc)[k]? = some e) :
    OutOk F t0 par (dc.length - neq) N (F (0 + k)) e.1 := by
  have hl := h.len
  have hk' : k < neq := by
    have := (List.getElem?_eq_some_iff.mp hk).1
    rwa [length_tOuts hl] at this
  rw [tOuts, List.getElem?_drop] at hk
  rw [Nat.zero_add]
  exact h.out k e hk' hk

theorem ordersDiff_ok (h : Along F t0 par neq N dc) (cnt o : ℕ) (hN : o + cnt ≤ N) :
    ordersDiff par t0 neq (dc.length - neq) dc cnt (o + 1) (expArr F t0 (dc.length - neq) ((o + 1) * (dc.length - neq)))
      = .ok (expArr F t0 (dc.length - neq) ((o + 1 + cnt) * (dc.length - neq))) := by
  induction cnt generalizing o with
  | zero => rfl
  | succ cnt ih =>
    have hl := h.len
    rw [ordersDiff]
    have h1 := svsDiff_ok (F := F) (nu := dc.length - neq) (N := N) (o := o) (by omega) (tOuts neq dc) 0
      (h.outsOk) (by rw [length_tOuts hl]; omega)
    simp only [Nat.add_zero, length_tOuts hl, Nat.zero_add] at h1
    rw [h1]
    simp only [Res.bind_eq, Res.bind_ok]
    have h2 := elemsDiff_ok (o := o + 1) h.smooth_all (tMid neq dc) neq h.elemsOk (by rw [length_tMid hl]; omega)
    rw [length_tMid hl, show neq + (dc.length - neq - neq) = dc.length - neq by omega] at h2
    rw [h2]
    simp only [Res.bind_ok]
    rw [← Nat.succ_mul, ih (o + 1) (by omega)]
    congr 3
    omega

theorem foldr_max_le {l : List ℕ} {b : ℕ} (h : ∀ x ∈ l, x < b) (hb : 0 < b) : l.foldr max 0 < b := by
  induction l with
  | nil => exact hb
  | cons a l ih =>
    have := h a (by simp)
    have := ih fun x hx => h x (by simp [hx])
    simp only [List.foldr_cons]
    omega

theorem le_foldr_max {l : List ℕ} {x : ℕ} (h : x ∈ l) : x ≤ l.foldr max 0 := by
  induction l with
  | nil => cases h
  | cons a l ih =>
    simp only [List.foldr_cons]
    rcases List.mem_cons.mp h with rfl | h
    · omega
    · have := ih h
      omega

theorem expArr_init (h : neq ≤ nu) {state : List ℝ} (hl : state.length = neq)
    (hs : ∀ (i : ℕ) (x : ℝ), state[i]? = some x → F i t0 = x) :
    state.map V.fin = expArr F t0 nu neq := by
  apply List.ext_getElem?
  intro i
  rcases Nat.lt_or_ge i neq with hi | hi
  · have h1 : i < state.length := by omega
    have h2 := hs i state[i] (List.getElem?_eq_getElem h1)
    have h3 : i / nu = 0 := Nat.div_eq_of_lt (by omega)
    have h4 : i % nu = i := Nat.mod_eq_of_lt (by omega)
    simp [expArr, h1, hi, h3, h4, tc_zero, h2]
  · rw [List.getElem?_eq_none (by simp; omega), List.getElem?_eq_none (by simp; omega)]

/-- The array of the derivatives: the Taylor coefficients of the `u` variables, order by order. -/
theorem jetArr_ok {svf : List ℕ} {order : ℕ} {state : List ℝ} (h : Along F t0 par neq order dc) (ho : 0 < order)
    (hl : state.length = neq) (hs : ∀ (i : ℕ) (x : ℝ), state[i]? = some x → F i t0 = x)
    (hf : ∀ u ∈ svf, u < dc.length - neq) :
    jetArr par t0 neq dc svf order state =
      .ok (expArr F t0 (dc.length - neq) (order * (dc.length - neq) + max neq (min (svf.foldr max 0 + 1)
        (dc.length - neq)))) := by
  have hlen := h.len
  obtain ⟨o, rfl⟩ : ∃ o, order = o + 1 := ⟨order - 1, by omega⟩
  rw [jetArr, expArr_init (F := F) (t0 := t0) (nu := dc.length - neq) (by omega) hl hs]
  have h0 := elemsDiff_ok (o := 0) h.smooth_all (tMid neq dc) neq h.elemsOk (by rw [length_tMid hlen]; omega)
  rw [length_tMid hlen, show neq + (dc.length - neq - neq) = dc.length - neq by omega, Nat.zero_mul, Nat.zero_add,
    Nat.zero_add] at h0
  simp only [h0, Res.bind_eq, Res.bind_ok, Nat.add_sub_cancel]
  have h1 := ordersDiff_ok h o 0 (by omega)
  simp only [Nat.zero_add, Nat.one_mul] at h1
  rw [h1]
  simp only [Res.bind_ok]
  have h2 := svsDiff_ok (F := F) (nu := dc.length - neq) (N := o + 1) (o := o) (by omega) (tOuts neq dc) 0
    (h.outsOk) (by rw [length_tOuts hlen]; omega)
  simp only [Nat.add_zero, length_tOuts hlen, Nat.zero_add] at h2
  rw [Nat.add_comm 1 o, h2]
  simp only [Res.bind_ok]
  have hl3 : (lastElems neq dc svf).length = min (svf.foldr max 0 + 1 - neq) (dc.length - neq - neq) := by
    rw [lastElems, List.length_take, length_tMid hlen]
  have h3 := elemsDiff_ok (o := o + 1) h.smooth_all (lastElems neq dc svf) neq (fun k e hk => h.elemsOk k e (by
    rw [lastElems, List.getElem?_take] at hk
    split at hk
    · exact hk
    · cases hk)) (by rw [hl3]; omega)
  rw [h3, hl3]
  congr 3
  omega

theorem fetchAll_ok {rd : ℕ → ℕ → Res (V ℝ)} {o : ℕ} {us : List ℕ}
    (h : ∀ u ∈ us, rd u o = .ok (V.fin (tc (F u) t0 o))) :
    fetchAll rd o us = .ok (us.map fun u => V.fin (tc (F u) t0 o)) := by
  induction us with
  | nil => rfl
  | cons u us ih =>
    rw [fetchAll, h u (by simp), ih fun v hv => h v (by simp [hv])]
    rfl

theorem extract_ok {rd : ℕ → ℕ → Res (V ℝ)} {us os : List ℕ}
    (h : ∀ o ∈ os, ∀ u ∈ us, rd u o = .ok (V.fin (tc (F u) t0 o))) :
    extract rd us os = .ok (os.map fun o => us.map fun u => V.fin (tc (F u) t0 o)) := by
  induction os with
  | nil => rfl
  | cons o os ih =>
    rw [extract, fetchAll_ok (h o (by simp)), ih fun p hp => h p (by simp [hp])]
    rfl

/-- The jet is made of the Taylor coefficients of the curves. -/
theorem jet_ok {svf : List ℕ} {order : ℕ} {state : List ℝ} (h : Along F t0 par neq order dc) (ho : 0 < order)
    (hl : state.length = neq) (hs : ∀ (i : ℕ) (x : ℝ), state[i]? = some x → F i t0 = x)
    (hf : ∀ u ∈ svf, u < dc.length - neq) :
    jet par t0 neq dc svf order state =
      .ok ((List.range (order + 1)).map fun o =>
        (List.range neq ++ svf).map fun u => V.fin (tc (F u) t0 o)) := by
  have hlen := h.len
  have hp := h.neq_pos
  rw [jet, if_neg (by simp; omega), jetArr_ok h ho hl hs hf]
  simp only [Res.bind_eq, Res.bind_ok]
  refine extract_ok fun o ho u hu => ?_
  have ho' : o ≤ order := by simpa [Nat.lt_succ_iff] using ho
  have hu' : u < dc.length - neq ∧ u < max neq (min (svf.foldr max 0 + 1) (dc.length - neq)) := by
    rcases List.mem_append.mp hu with hu | hu
    · have : u < neq := by simpa using hu
      omega
    · have h1 := hf u hu
      have h2 := le_foldr_max hu
      omega
  refine fetch_expArr hu'.1 ?_
  have := Nat.mul_le_mul_right (dc.length - neq) ho'
  omega

end Heyoka.Taylor
