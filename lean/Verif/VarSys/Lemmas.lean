import Verif.VarSys.Model
import Verif.Dtens.Ranges
import Verif.CFunc.Lemmas

/-!
# Lemmas on the setup of the initial conditions
-/

set_option linter.unusedSectionVars false

namespace Heyoka.Dtens

variable {α : Type} {d : Dt α} {nouts order : Nat}

/-- The derivatives with a property closed downwards are at the beginning. -/
theorem Complete.prefix (h : Complete d nouts order) (q : SIdx → Bool)
    (hq : ∀ a b, Less a b → q b = true → q a = true) {ks : List SIdx} (hks : ks.Pairwise Less)
    (hmem : ∀ v, v ∈ ks ↔ (∃ p ∈ d.map, p.1 = v) ∧ q v = true) :
    ∃ rest, d.map.map (·.1) = ks ++ rest := by
  refine ⟨(d.map.map (·.1)).filter (fun v => !q v), ?_⟩
  have hs : (d.map.map (·.1)).Pairwise Less := List.pairwise_map.2 h.sorted
  apply keys_ext hs
  · rw [List.pairwise_append]
    refine ⟨hks, hs.filter _, fun a ha b hb => ?_⟩
    obtain ⟨⟨p, hp, rfl⟩, hqa⟩ := (hmem a).1 ha
    rw [List.mem_filter, List.mem_map] at hb
    obtain ⟨⟨p', hp', rfl⟩, hqb⟩ := hb
    have hqb : q p'.1 = false := by simpa using hqb
    have hne : p.1 ≠ p'.1 := fun he => by rw [he, hqb] at hqa; cases hqa
    rcases Less.tri (h.map.sane p hp) (h.map.sane p' hp') hne with hl | hl
    · exact hl
    · rw [hq _ _ hl hqa] at hqb; cases hqb
  · intro v
    rw [List.mem_append, hmem, List.mem_filter, List.mem_map]
    constructor
    · rintro ⟨p, hp, rfl⟩
      cases hqv : q p.1 with
      | true => exact .inl ⟨⟨p, hp, rfl⟩, rfl⟩
      | false => exact .inr ⟨⟨p, hp, rfl⟩, rfl⟩
    · rintro (⟨hv, _⟩ | ⟨hv, _⟩) <;> exact hv

/-- The first keys. -/
theorem Complete.pos_zero (h : Complete d nouts order) {c : Nat} (hc : c < nouts) :
    ∃ p, d.map[c]? = some p ∧ p.1 = (c, []) := by
  obtain ⟨rest, hr⟩ := h.prefix (fun v => degree v.2 == 0)
    (fun a b hl hb => by
      rw [beq_iff_eq] at hb ⊢
      rcases hl with hl | ⟨hl, _⟩ <;> omega)
    (ks := (List.range nouts).map (fun c => (c, [])))
    (by
      rw [List.pairwise_map]
      exact List.pairwise_lt_range.imp fun {a b} hab => .inr ⟨rfl, .inl hab⟩)
    (fun v => by
      rw [List.mem_map, h.keys]
      constructor
      · rintro ⟨c, hc, rfl⟩
        exact ⟨⟨List.mem_range.1 hc, ⟨by simp, by simp⟩, by simp, by simp [degree]⟩, by simp [degree]⟩
      · rintro ⟨⟨h1, h2, _, _⟩, h3⟩
        rw [beq_iff_eq] at h3
        refine ⟨v.1, List.mem_range.2 h1, Prod.ext rfl ?_⟩
        by_contra hne
        have := degree_pos h2 (Ne.symm hne)
        omega)
  have h1 : (d.map.map (·.1))[c]? = some (c, []) := by
    rw [hr, List.getElem?_append_left (by simpa using hc), List.getElem?_map, List.getElem?_range hc]
    rfl
  rw [List.getElem?_map, Option.map_eq_some_iff] at h1
  exact h1

theorem getElem?_flatMap_range {β : Type} (n m : Nat) (f : Nat → Nat → β) {c a : Nat} (hc : c < n) (ha : a < m) :
    ((List.range n).flatMap fun c => (List.range m).map (f c))[c * m + a]? = some (f c a) := by
  induction n generalizing c f with
  | zero => omega
  | succ n ih =>
    rw [List.range_succ_eq_map, List.flatMap_cons]
    cases c with
    | zero =>
      rw [List.getElem?_append_left (by simpa using ha), Nat.zero_mul, Nat.zero_add, List.getElem?_map,
        List.getElem?_range ha]
      rfl
    | succ c =>
      rw [List.getElem?_append_right (by simp; rw [Nat.add_mul]; omega), List.flatMap_map]
      have := ih (fun c => f (c + 1)) (c := c) (by omega)
      simp only [List.length_map, List.length_range] at this ⊢
      rw [show (c + 1) * m + a - m = c * m + a by rw [Nat.add_mul]; omega]
      exact this

/-- The first-order derivatives. -/
theorem Complete.pos_one (h : Complete d nouts order) (ho : 1 ≤ order) {c a : Nat} (hc : c < nouts)
    (ha : a < d.nargs) : ∃ p, d.map[nouts + c * d.nargs + a]? = some p ∧ p.1 = (c, [(a, 1)]) := by
  obtain ⟨rest, hr⟩ := h.prefix (fun v => degree v.2 ≤ 1)
    (fun a b hl hb => by
      rw [decide_eq_true_eq] at hb ⊢
      rcases hl with hl | ⟨hl, _⟩ <;> omega)
    (ks := (List.range nouts).map (fun c => (c, [])) ++ (List.range nouts).flatMap fun c =>
      (List.range d.nargs).map fun a => (c, [(a, 1)]))
    (by
      rw [List.pairwise_append, List.pairwise_map, List.pairwise_flatMap]
      refine ⟨List.pairwise_lt_range.imp fun {a b} hab => .inr ⟨rfl, .inl hab⟩, ⟨fun c _ => ?_, ?_⟩, ?_⟩
      · rw [List.pairwise_map]
        refine List.pairwise_lt_range.imp fun {a b} hab => ?_
        refine .inr ⟨by simp [degree], .inr ⟨rfl, a, fun j hj => ?_, ?_⟩⟩
        · rw [dense_cons, dense_cons, if_neg (by simp; omega), if_neg (by simp; omega)]
        · rw [dense_cons, dense_cons, if_neg (by simp; omega), if_pos rfl, dense_nil]; norm_num
      · refine List.pairwise_lt_range.imp fun {a b} hab => ?_
        intro x hx y hy
        simp only [List.mem_map, List.mem_range] at hx hy
        obtain ⟨i, _, rfl⟩ := hx
        obtain ⟨j, _, rfl⟩ := hy
        exact .inr ⟨by simp [degree], .inl hab⟩
      · intro x hx y hy
        simp only [List.mem_map, List.mem_flatMap, List.mem_range] at hx hy
        obtain ⟨i, _, rfl⟩ := hx
        obtain ⟨_, _, j, _, rfl⟩ := hy
        exact .inl (by simp [degree]))
    (fun v => by
      rw [List.mem_append, h.keys]
      simp only [List.mem_map, List.mem_flatMap, List.mem_range, decide_eq_true_eq]
      constructor
      · rintro (⟨c, hc, rfl⟩ | ⟨c, hc, a, ha, rfl⟩)
        · exact ⟨⟨hc, ⟨by simp, by simp⟩, by simp, by simp [degree]⟩, by simp [degree]⟩
        · exact ⟨⟨hc, ⟨by simp, by simp⟩, by simpa using ha, by simpa [degree] using ho⟩, by simp [degree]⟩
      · rintro ⟨⟨h1, h2, h3, _⟩, h4⟩
        obtain ⟨c, l⟩ := v
        rcases l with _ | ⟨⟨a, m⟩, t⟩
        · exact .inl ⟨c, h1, rfl⟩
        · refine .inr ⟨c, h1, a, h3 (a, m) (by simp), ?_⟩
          have hm : m ≠ 0 := h2.2 (a, m) (by simp)
          have h4 : m + degree t ≤ 1 := h4
          have ht : t = [] := by
            by_contra hne
            have := degree_pos h2.tail hne
            omega
          have hm1 : m = 1 := by omega
          rw [ht, hm1])
  have h1 : (d.map.map (·.1))[nouts + c * d.nargs + a]? = some (c, [(a, 1)]) := by
    rw [hr]
    have hlt : nouts + c * d.nargs + a < nouts + nouts * d.nargs := by
      have : (c + 1) * d.nargs ≤ nouts * d.nargs := Nat.mul_le_mul_right _ hc
      rw [Nat.add_mul] at this
      omega
    have hL : ((List.range nouts).flatMap fun c => (List.range d.nargs).map fun a => ((c, [(a, 1)]) : SIdx)).length
        = nouts * d.nargs := by simp [List.length_flatMap]
    rw [List.getElem?_append_left (by
        rw [List.length_append, hL, List.length_map, List.length_range]; exact hlt),
      List.getElem?_append_right (by simp; omega), List.length_map, List.length_range,
      show nouts + c * d.nargs + a - nouts = c * d.nargs + a by omega]
    exact getElem?_flatMap_range nouts d.nargs (fun c a => (c, [(a, 1)])) hc ha
  rw [List.getElem?_map, Option.map_eq_some_iff] at h1
  exact h1

end Heyoka.Dtens

namespace Heyoka.Sym

open Heyoka.Dtens

variable {K : Type}

theorem writeAt_ok {α : Type} (xs : List α) : ∀ (l : List α) (k : Nat), k + xs.length ≤ l.length →
    ∃ l', writeAt l k xs = .ok l' ∧ l'.length = l.length ∧
      ∀ m : Nat, l'[m]? = if k ≤ m ∧ m < k + xs.length then xs[m - k]? else l[m]? := by
  induction xs with
  | nil =>
    intro l k _
    refine ⟨l, rfl, rfl, fun m => ?_⟩
    rw [if_neg (by simp)]
  | cons x xs ih =>
    intro l k hk
    simp only [List.length_cons] at hk
    obtain ⟨l', h1, h2, h3⟩ := ih (l.set k x) (k + 1) (by rw [List.length_set]; omega)
    refine ⟨l', ?_, by rw [h2, List.length_set], fun m => ?_⟩
    · rw [writeAt, if_pos (by omega), h1]
    · rw [h3]
      simp only [List.length_cons]
      rcases Nat.lt_trichotomy m k with hm | hm | hm
      · rw [if_neg (by omega), if_neg (by omega), List.getElem?_set_ne (by omega)]
      · subst hm
        rw [if_neg (by omega), if_pos (by omega), List.getElem?_set_self (by omega), Nat.sub_self]
        rfl
      · by_cases hc : m < k + 1 + xs.length
        · rw [if_pos ⟨by omega, hc⟩, if_pos ⟨by omega, by omega⟩, show m - k = (m - (k + 1)) + 1 by omega,
            List.getElem?_cons_succ]
        · rw [if_neg (by omega), if_neg (by omega), List.getElem?_set_ne (by omega)]

theorem resize_get {α : Type} (l : List α) (n : Nat) (x : α) (hl : l.length ≤ n) :
    (resize l n x).length = n ∧ ∀ m : Nat, m < n → (resize l n x)[m]? = if m < l.length then l[m]? else some x := by
  unfold resize
  rw [List.take_of_length_le hl]
  refine ⟨by simp; omega, fun m hm => ?_⟩
  split
  · rw [List.getElem?_append_left (by assumption)]
  · rw [List.getElem?_append_right (by omega), List.getElem?_replicate, if_pos (by omega)]

section
variable [Field K] [LinearOrder K] [FloorRing K] [Interp K] [FmtName K]

/-- Is a one written for the derivative at position `r`? -/
def active (vs : VSys K) (r : Nat) : Bool :=
  match vs.dt.map[r]? with
  | none => false
  | some p =>
    match p.1.2 with
    | [(didx, order)] =>
      match vs.sys[p.1.1]?, vs.vargs[didx]? with
      | some q, some a => !(order > 1 || !q.1.beq a)
      | _, _ => false
    | _ => false

/-- The accesses of the loop are within the bounds. -/
def StepIn (vs : VSys K) (r : Nat) : Prop :=
  ∃ p, vs.dt.map[r]? = some p ∧ p.1.1 < vs.sys.length ∧ ∀ q ∈ p.1.2, q.1 < vs.vargs.length

theorem icsStep_ok {vs : VSys K} {b r : Nat} {state : List K} (hin : StepIn vs r) (hl : (r + 1) * b ≤ state.length)
    (hb : 0 < b) : ∃ st, icsStep vs b state r = .ok st ∧ st.length = state.length ∧
      ∀ m : Nat, st[m]? = if m / b = r ∧ active vs r = true then some 1 else state[m]? := by
  obtain ⟨⟨⟨c, l⟩, e⟩, hp, hc, ha⟩ := hin
  unfold icsStep active
  rw [hp]
  simp only at hc ha ⊢
  rcases l with _ | ⟨⟨i, o⟩, _ | ⟨q, t⟩⟩
  · exact ⟨state, rfl, rfl, fun m => by simp⟩
  · have hi : i < vs.vargs.length := ha (i, o) (by simp)
    have hs := List.getElem?_eq_getElem hc
    have hv := List.getElem?_eq_getElem hi
    simp only [hs, hv]
    cases hcond : (decide (o > 1) || !(vs.sys[c].1.beq vs.vargs[i])) with
    | true => exact ⟨state, by simp, rfl, fun m => by simp⟩
    | false =>
      simp only [Bool.false_eq_true, if_false, Bool.not_false, and_true]
      obtain ⟨st, h1, h2, h3⟩ := writeAt_ok (List.replicate b (1 : K)) state (r * b) (by
        rw [List.length_replicate]; rw [Nat.add_mul] at hl; omega)
      refine ⟨st, h1, h2, fun m => ?_⟩
      rw [h3, List.length_replicate]
      have hiff : (r * b ≤ m ∧ m < r * b + b) ↔ m / b = r := by
        rw [Nat.div_eq_iff hb]
        omega
      by_cases hm : m / b = r
      · have hm' := hiff.2 hm
        rw [if_pos hm', if_pos hm, List.getElem?_replicate, if_pos (by omega)]
      · rw [if_neg (fun h => hm (hiff.1 h)), if_neg hm]
  · exact ⟨state, rfl, rfl, fun m => by simp⟩

theorem icsLoop_ok {vs : VSys K} {b : Nat} (hb : 0 < b) (n : Nat) : ∀ (i : Nat) (state : List K),
    (∀ r, i ≤ r → r < i + n → StepIn vs r) → (i + n) * b ≤ state.length →
    ∃ st, icsLoop vs b i n state = .ok st ∧ st.length = state.length ∧
      ∀ m : Nat, st[m]? = if (i ≤ m / b ∧ m / b < i + n) ∧ active vs (m / b) = true then some 1 else state[m]? := by
  induction n with
  | zero =>
    intro i state _ _
    exact ⟨state, rfl, rfl, fun m => by rw [if_neg (by omega)]⟩
  | succ n ih =>
    intro i state hin hl
    obtain ⟨st, h1, h2, h3⟩ := icsStep_ok (hin i (le_refl _) (by omega)) (state := state)
      (le_trans (Nat.mul_le_mul_right b (by omega)) hl) hb
    obtain ⟨st', h4, h5, h6⟩ := ih (i + 1) st (fun r h h' => hin r (by omega) (by omega))
      (by rw [h2, show i + 1 + n = i + (n + 1) by omega]; exact hl)
    refine ⟨st', ?_, by omega, fun m => ?_⟩
    · rw [icsLoop, h1, Res.bind_ok, h4]
    · rw [h6, h3]
      by_cases ha : active vs (m / b) = true
      · by_cases he : m / b = i
        · rw [he] at ha ⊢
          rw [if_neg (by omega), if_pos ⟨rfl, ha⟩, if_pos ⟨⟨le_refl _, by omega⟩, ha⟩]
        · rw [if_neg (show ¬ (m / b = i ∧ active vs i = true) from fun h => he h.1)]
          by_cases h7 : i + 1 ≤ m / b ∧ m / b < i + 1 + n
          · rw [if_pos ⟨h7, ha⟩, if_pos ⟨by omega, ha⟩]
          · rw [if_neg (fun h => h7 h.1), if_neg (by omega)]
      · rw [if_neg (fun h => ha h.2), if_neg (show ¬ (m / b = i ∧ active vs i = true) from fun h => ha (h.1 ▸ h.2)), if_neg (fun h => ha h.2)]

theorem icsT0Loop_ok {b n nargs ta : Nat} {out : List (Option K)} (hta : ta < nargs) (hb : 0 < b)
    (hout : out.length = b * n) (k : Nat) : ∀ (i : Nat) (state : List (Option K)), i + k = n →
    b * (n + n * nargs) ≤ state.length →
    ∃ st, icsT0Loop b n nargs ta out i k state = .ok st ∧ st.length = state.length ∧
      (∀ c j, i ≤ c → c < n → j < b → st[b * (n + c * nargs + ta) + j]? = out[b * c + j]?) ∧
      ∀ m : Nat, (∀ c, i ≤ c → c < n → m / b ≠ n + c * nargs + ta) → st[m]? = state[m]? := by
  induction k with
  | zero =>
    intro i state hi _
    exact ⟨state, rfl, rfl, fun c j h1 h2 => by omega, fun _ _ => rfl⟩
  | succ k ih =>
    intro i state hi hl
    have hlen : ((out.drop (b * i)).take b).length = b := by
      rw [List.length_take, List.length_drop, hout]
      have : b * (i + 1) ≤ b * n := Nat.mul_le_mul_left b (by omega)
      rw [Nat.mul_add] at this
      omega
    have hpos : b * n + b * i * nargs + b * ta = b * (n + i * nargs + ta) := by ring
    have hbound : (n + i * nargs + ta) + 1 ≤ n + n * nargs := by
      have : (i + 1) * nargs ≤ n * nargs := Nat.mul_le_mul_right _ (by omega)
      rw [Nat.add_mul] at this
      omega
    obtain ⟨st, h1, h2, h3⟩ := writeAt_ok ((out.drop (b * i)).take b) state (b * (n + i * nargs + ta)) (by
      rw [hlen]
      have := Nat.mul_le_mul_left b hbound
      rw [Nat.mul_add] at this
      omega)
    rw [hlen] at h3
    obtain ⟨st', h4, h5, h6, h7⟩ := ih (i + 1) st (by omega) (by omega)
    have hdiv : ∀ m : Nat, (b * (n + i * nargs + ta) ≤ m ∧ m < b * (n + i * nargs + ta) + b) ↔
        m / b = n + i * nargs + ta := by
      intro m
      rw [Nat.div_eq_iff hb, Nat.mul_comm b]
      omega
    refine ⟨st', ?_, by omega, fun c j hc1 hc2 hj => ?_, fun m hm => ?_⟩
    · rw [icsT0Loop, hpos, h1, Res.bind_ok, h4]
    · rcases Nat.lt_or_eq_of_le hc1 with hc | hc
      · exact h6 c j hc hc2 hj
      · subst hc
        have hd : (b * (n + i * nargs + ta) + j) / b = n + i * nargs + ta := (hdiv _).1 ⟨by omega, by omega⟩
        rw [h7 _ fun c' hc1' hc2' he => ?_, h3, if_pos (by omega), Nat.add_sub_cancel_left,
          List.getElem?_take_of_lt hj, List.getElem?_drop]
        rw [hd] at he
        have : i * nargs + nargs ≤ c' * nargs := by
          have := Nat.mul_le_mul_right nargs hc1'
          rwa [Nat.add_mul, Nat.one_mul] at this
        omega
    · rw [h7 m fun c h8 h9 => hm c (by omega) h9, h3, if_neg ?_]
      intro h
      exact hm i (le_refl _) (by omega) ((hdiv m).1 h)

end

end Heyoka.Sym
