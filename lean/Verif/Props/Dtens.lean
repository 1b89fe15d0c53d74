import Mathlib.Tactic.IntervalCases
import Verif.Dtens.Ranges

/-!
# C16: the order of derivatives and the accessors of tensors of derivatives

Specification (see `Verif/Dtens/Order.lean`): `dense l i` is the order of differentiation with
respect to argument `i`, `degree l` is the total order, `Less` compares the total order, the
component, and then the dense orders in reverse lexicographic order. `Complete d nouts order`
says that the keys of `d` are all the derivatives up to `order`, sorted; it is what
`diff_tensors()` returns.
-/

namespace Heyoka.Dtens

variable {α : Type} {d : Dt α} {nouts order : Nat}

/-- C16: **the comparison of indices is the specified one**; if a total degree does not fit in 32
bits the comparison throws. -/
theorem comparison_spec {v1 v2 : SIdx} (s1 : Sane v1.2) (s2 : Sane v2.2) :
    (degree v1.2 < 2 ^ 32 → degree v2.2 < 2 ^ 32 →
      ∃ b, cmp v1 v2 = .ok b ∧ (b = true ↔ Less v1 v2)) ∧
    (2 ^ 32 ≤ degree v1.2 ∨ 2 ^ 32 ≤ degree v2.2 → cmp v1 v2 = .throw) := by
  refine ⟨fun h1 h2 => cmp_eq h1 h2 s1 s2, fun h => ?_⟩
  unfold cmp
  rw [degLoop_eq _ _ (by norm_num), degLoop_eq _ _ (by norm_num)]
  simp only [zero_add]
  rcases h with h | h
  · rw [if_neg (not_lt.mpr h)]; rfl
  · rw [if_neg (not_lt.mpr h)]
    by_cases h2 : degree v1.2 < 2 ^ 32
    · rw [if_pos h2]; rfl
    · rw [if_neg h2]; rfl

/-- C16: **it is a strict total order** on well-formed indices. -/
theorem comparison_total :
    (∀ v, ¬ Less v v) ∧ (∀ a b c, Less a b → Less b c → Less a c) ∧
      (∀ a b : SIdx, Sane a.2 → Sane b.2 → Less a b ∨ a = b ∨ Less b a) := by
  refine ⟨Less.irrefl, fun a b c => Less.trans, fun a b ha hb => ?_⟩
  by_cases h : a = b
  · exact .inr (.inl h)
  · rcases Less.tri ha hb h with h | h
    · exact .inl h
    · exact .inr (.inr h)

/-- C16: number of outputs and order. -/
theorem nouts_order (h : Complete d nouts order) :
    d.getNouts = .ok nouts ∧ d.getOrder = order := ⟨h.getNouts, h.getOrder⟩

/-- The number of a key: how many keys of the tensor are smaller. -/
def IsRank (d : Dt α) (v : SIdx) (i : Nat) : Prop :=
  ∃ h : i < d.map.length, d.map[i].1 = v ∧ ∀ j (hj : j < d.map.length), Less d.map[j].1 v ↔ j < i

/-- C16: **lookup**: a derivative of the tensor is found at its rank, and `operator[]` returns its
value; for all other well-formed indices `find()` returns `end()` and `operator[]` throws; malformed
indices are not found. -/
theorem lookup_spec (h : Complete d nouts order) (v : SIdx) :
    (Sane v.2 → degree v.2 ≤ order → v.1 < nouts → (∀ q ∈ v.2, q.1 < d.nargs) →
      ∃ i x, IsRank d v i ∧ d.indexOf v = .ok i ∧ d.map.lookup v = some x ∧ d.at v = .ok x) ∧
    (Sane v.2 → degree v.2 < 2 ^ 32 →
      ¬ (degree v.2 ≤ order ∧ v.1 < nouts ∧ ∀ q ∈ v.2, q.1 < d.nargs) →
      d.indexOf v = .ok d.map.length ∧ d.at v = .throw) ∧
    (¬ Sane v.2 → d.indexOf v = .ok d.map.length ∧ d.at v = .throw) := by
  have hend : d.map[d.map.length]? = none := by simp
  refine ⟨fun hs hd hc ha => ?_, fun hs hd hn => ?_, fun hs => ?_⟩
  · obtain ⟨i, hi, h1, h2⟩ := h.has hc hs ha hd
    have hf : d.find v = .ok i := by
      unfold Dt.find
      rw [(sanityCheck_iff v).mpr hs]
      simpa using h2
    refine ⟨i, d.map[i].2, ⟨hi, h1, fun j hj => ?_⟩, hf, ?_, ?_⟩
    · rw [← h1]; exact h.map.lt_iff hj hi
    · rw [← h1]; exact h.lookup (List.getElem_mem hi)
    · unfold Dt.at Dt.deref
      rw [hf]
      simp [List.getElem?_eq_getElem hi]
  · have hf : d.find v = .ok d.map.length := by
      unfold Dt.find
      rw [(sanityCheck_iff v).mpr hs]
      simp only [Bool.not_true, Bool.false_eq_true, if_false]
      refine mapFind_not_mem h.map hs hd fun p hp he => hn ?_
      have := (h.keys v).mp ⟨p, hp, he⟩
      exact ⟨this.2.2.2, this.1, this.2.2.1⟩
    refine ⟨hf, ?_⟩
    unfold Dt.at Dt.deref
    rw [hf]
    simp
  · have hf : d.find v = .ok d.map.length := by
      unfold Dt.find
      rw [Bool.eq_false_iff.mpr (fun hc => hs ((sanityCheck_iff v).mp hc))]
      rfl
    refine ⟨hf, ?_⟩
    unfold Dt.at Dt.deref
    rw [hf]
    simp

theorem sparse_bound (i : Nat) (l : List Nat) :
    ∀ p ∈ sparse i l, i ≤ p.1 ∧ p.1 < i + l.length ∧ p.2 ≠ 0 := by
  induction l generalizing i with
  | nil => simp [sparse]
  | cons n t ih =>
    intro p hp
    unfold sparse at hp
    split at hp
    · rcases List.mem_cons.mp hp with rfl | hp
      · rename_i hn; exact ⟨le_rfl, by simp, hn⟩
      · have := ih (i + 1) p hp
        simp only [List.length_cons]
        exact ⟨by omega, by omega, this.2.2⟩
    · have := ih (i + 1) p hp
      simp only [List.length_cons]
      exact ⟨by omega, by omega, this.2.2⟩

theorem sparse_sane (i : Nat) (l : List Nat) : Sane (sparse i l) := by
  refine ⟨?_, fun p hp => (sparse_bound i l p hp).2.2⟩
  induction l generalizing i with
  | nil => simp [sparse]
  | cons n t ih =>
    unfold sparse
    split
    · rw [List.pairwise_cons]
      exact ⟨fun q hq => by have := (sparse_bound (i + 1) t q hq).1; simp only; omega, ih _⟩
    · exact ih _

theorem sparse_degree (i : Nat) (l : List Nat) : degree (sparse i l) = l.sum := by
  induction l generalizing i with
  | nil => simp [sparse, degree]
  | cons n t ih =>
    unfold sparse
    have := ih (i + 1)
    split
    · simp only [degree, List.map_cons, List.sum_cons] at this ⊢; omega
    · rename_i h; simp only [ne_eq, not_not] at h; rw [this, List.sum_cons, h]; omega

theorem sparse_dense (i : Nat) (l : List Nat) (k : Nat) (hk : k < l.length) :
    dense (sparse i l) (i + k) = l[k] := by
  induction l generalizing i k with
  | nil => simp at hk
  | cons n t ih =>
    unfold sparse
    cases k with
    | zero =>
      split
      · rw [dense_cons]; simp
      · rename_i h
        simp only [ne_eq, not_not] at h
        rw [dense_eq_zero]
        · simp [h]
        · intro p hp; have := (sparse_bound (i + 1) t p hp).1; omega
    | succ k =>
      simp only [List.length_cons] at hk
      have := ih (i + 1) k (by omega)
      rw [show i + 1 + k = i + (k + 1) by omega] at this
      split
      · rw [dense_cons, if_neg (by simp), this]; simp
      · rw [this]; simp

/-- C16: **lookup with dense indices** is lookup of the sparse index with the same component and
the same orders of differentiation; index vectors of the wrong size are not found. -/
theorem lookup_dense (d : Dt α) (c : Nat) (orders : List Nat) :
    (orders.length = d.nargs → ∃ l, Sane l ∧ degree l = orders.sum ∧ (∀ q ∈ l, q.1 < d.nargs) ∧
      (∀ k (hk : k < orders.length), dense l k = orders[k]) ∧
      d.findDense (c :: orders) = d.find (c, l)) ∧
    (orders.length ≠ d.nargs → d.findDense (c :: orders) = .ok d.map.length) ∧
    d.findDense [] = .ok d.map.length := by
  refine ⟨fun h => ⟨sparse 0 orders, sparse_sane _ _, sparse_degree _ _, ?_, ?_, ?_⟩, fun h => ?_, rfl⟩
  · intro q hq
    have := sparse_bound 0 orders q hq
    omega
  · intro k hk
    have := sparse_dense 0 orders k hk
    rwa [Nat.zero_add] at this
  · unfold Dt.findDense Dt.find
    have hs : sanityCheck (c, sparse 0 orders) = true :=
      (sanityCheck_iff (c, sparse 0 orders)).mpr (sparse_sane _ _)
    simp [h, hs]
  · unfold Dt.findDense
    simp [h]

/-- C16: **`get_derivatives(order)`** is the range of exactly the derivatives of that order, of all
components; it is empty for orders which are not in the tensor. -/
theorem get_derivatives_spec (h : Complete d nouts order) (o : Nat) (ho : o < 2 ^ 32) :
    ∃ be, d.getDerivatives o = .ok be ∧
      d.range be = .ok (d.map.filter (fun p => degree p.1.2 == o)) := by
  have hn := h.nouts_pos
  unfold Dt.getDerivatives
  rw [h.isEmpty, h.getNouts, h.lastArg]
  simp only [Bool.false_eq_true, if_false, Res.bind_ok]
  by_cases hle : o ≤ order
  · obtain ⟨b, e, hb, he, hbe, hel, hseg⟩ := h.seg (c1 := 0) (c2 := nouts - 1) (o := o)
      (by omega) (by omega) hle
    rw [hb, he]
    refine ⟨_, rfl, ?_⟩
    unfold Dt.range Dt.past
    simp only
    rw [if_pos (show e ≠ d.map.length by omega), if_pos (show b ≤ e + 1 by omega), hseg]
    congr 1
    apply List.filter_congr
    intro p hp
    have := ((h.keys p.1).mp ⟨p, hp, rfl⟩).1
    have h1 : decide (p.1.1 ≤ nouts - 1) = true := decide_eq_true (by omega)
    simp [h1]
  · have hnf : ∀ c a, mapFind d.map (c, single a o) = .ok d.map.length := by
      intro c a
      refine mapFind_not_mem h.map (sane_single _ _) (by rw [degree_single]; exact ho) ?_
      intro p hp he
      have := ((h.keys p.1).mp ⟨p, hp, rfl⟩).2.2.2
      rw [he, degree_single] at this
      omega
    rw [hnf, hnf]
    refine ⟨_, rfl, ?_⟩
    unfold Dt.range Dt.past
    simp only [ne_eq, not_true, if_false, le_refl, if_true, Nat.sub_self, List.take_zero]
    congr 1
    symm
    rw [List.filter_eq_nil_iff]
    intro p hp
    have := ((h.keys p.1).mp ⟨p, hp, rfl⟩).2.2.2
    simp only [beq_iff_eq]; omega

/-- C16: **`get_derivatives(component, order)`**. -/
theorem get_derivatives_component (h : Complete d nouts order) (c o : Nat) (ho : o < 2 ^ 32) :
    ∃ be, d.getDerivativesComp c o = .ok be ∧
      d.range be = .ok (d.map.filter (fun p => degree p.1.2 == o && p.1.1 == c)) := by
  unfold Dt.getDerivativesComp
  rw [h.isEmpty, h.lastArg]
  simp only [Bool.false_eq_true, if_false]
  by_cases hle : o ≤ order ∧ c < nouts
  · obtain ⟨b, e, hb, he, hbe, hel, hseg⟩ := h.seg (c1 := c) (c2 := c) (o := o)
      le_rfl hle.2 hle.1
    rw [hb]
    simp only [Res.bind_ok]
    rw [he]
    refine ⟨_, rfl, ?_⟩
    unfold Dt.range Dt.past
    simp only
    rw [if_pos (show e ≠ d.map.length by omega), if_pos (show b ≤ e + 1 by omega), hseg]
    congr 1
    apply List.filter_congr
    intro p hp
    congr 1
    by_cases hc : p.1.1 = c
    · simp [hc]
    · rw [beq_eq_false_iff_ne.mpr hc]
      rcases Nat.lt_or_gt_of_ne hc with h1 | h1
      · simp [decide_eq_false (show ¬ c ≤ p.1.1 by omega)]
      · simp [decide_eq_false (show ¬ p.1.1 ≤ c by omega)]
  · have hno : ∀ p ∈ d.map, ¬ (degree p.1.2 = o ∧ p.1.1 = c) := by
      rintro p hp ⟨h1, h2⟩
      have := (h.keys p.1).mp ⟨p, hp, rfl⟩
      exact hle ⟨by omega, by omega⟩
    have hnf : ∀ a, mapFind d.map (c, single a o) = .ok d.map.length := by
      intro a
      refine mapFind_not_mem h.map (sane_single _ _) (by rw [degree_single]; exact ho) ?_
      intro p hp he
      exact hno p hp ⟨by rw [he, degree_single], by rw [he]⟩
    rw [hnf]
    simp only [Res.bind_ok]
    rw [hnf]
    refine ⟨_, rfl, ?_⟩
    unfold Dt.range Dt.past
    simp only [ne_eq, not_true, if_false, le_refl, if_true, Nat.sub_self, List.take_zero]
    congr 1
    symm
    rw [List.filter_eq_nil_iff]
    intro p hp
    simp only [Bool.and_eq_true, beq_iff_eq]
    exact hno p hp

/-- The derivatives of first order. -/
theorem degree_one {l : List (Nat × Nat)} (hl : Sane l) :
    degree l = 1 ↔ ∃ i, l = [(i, 1)] := by
  constructor
  · intro hd
    rcases l with _ | ⟨⟨i, n⟩, t⟩
    · simp [degree] at hd
    · have h1 : n ≠ 0 := hl.2 (i, n) (by simp)
      have h2 : degree t = 0 := by simp only [degree, List.map_cons, List.sum_cons] at hd ⊢; omega
      have h3 : t = [] := by
        by_contra hne; have := degree_pos hl.tail hne; omega
      have h4 : n = 1 := by simp only [degree, List.map_cons, List.sum_cons] at hd h2; omega
      exact ⟨i, by rw [h3, h4]⟩
  · rintro ⟨i, rfl⟩; simp [degree]

/-- The derivatives of second order. -/
def second (i j : Nat) : List (Nat × Nat) := if i = j then [(i, 2)] else [(i, 1), (j, 1)]

theorem degree_two {l : List (Nat × Nat)} (hl : Sane l) :
    degree l = 2 ↔ ∃ i j, i ≤ j ∧ l = second i j := by
  constructor
  · intro hd
    rcases l with _ | ⟨⟨i, n⟩, t⟩
    · simp [degree] at hd
    · have h1 : n ≠ 0 := hl.2 (i, n) (by simp)
      simp only [degree, List.map_cons, List.sum_cons] at hd
      have hd' : n + degree t = 2 := hd
      by_cases h2 : degree t = 0
      · have h3 : t = [] := by
          by_contra hne; have := degree_pos hl.tail hne; omega
        exact ⟨i, i, le_rfl, by rw [h3, second, if_pos rfl]; congr; omega⟩
      · obtain ⟨j, hj⟩ := (degree_one hl.tail).mp (by omega)
        have hij : i < j := by have := hl.head (j, 1) (by rw [hj]; simp); exact this
        exact ⟨i, j, hij.le, by rw [hj, second, if_neg (by omega)]; congr; omega⟩
  · rintro ⟨i, j, _, rfl⟩
    unfold second
    split <;> simp [degree]

/-- C16: **the gradient** is the list of the first-order derivatives with respect to the first
argument, the second argument, and so on. It is available only for a single output and if the
first-order derivatives are in the tensor. -/
theorem gradient_spec (h : Complete d nouts order) :
    (nouts = 1 → 1 ≤ order → ∃ g, d.getGradient = .ok g ∧
      g.map some = (List.range d.nargs).map (fun i => d.map.lookup (0, [(i, 1)]))) ∧
    (nouts ≠ 1 ∨ order = 0 → d.getGradient = .throw) := by
  refine ⟨fun h1 h2 => ?_, fun h1 => ?_⟩
  · obtain ⟨be, hbe, hr⟩ := get_derivatives_component h 0 1 (by norm_num)
    have hg : d.getGradient = .ok ((d.map.filter
        (fun p => degree p.1.2 == 1 && p.1.1 == 0)).map (·.2)) := by
      unfold Dt.getGradient Dt.values
      rw [h.getNouts, h.getOrder, hbe]
      simp only [Res.bind_ok, h1, hr]
      rw [if_neg (by simp), if_neg (by omega)]
    refine ⟨_, hg, ?_⟩
    rw [h.values_of _ (ks := (List.range d.nargs).map (fun i => (0, [(i, 1)]))) ?_ ?_, List.map_map]
    · rfl
    · rw [List.pairwise_map]
      refine List.pairwise_lt_range.imp fun {a b} hab => ?_
      refine .inr ⟨by simp [degree], .inr ⟨rfl, a, fun j hj => ?_, ?_⟩⟩
      · rw [dense_cons, dense_cons, if_neg (by simp; omega), if_neg (by simp; omega)]
      · rw [dense_cons, dense_cons, if_neg (by simp; omega), if_pos rfl, dense_nil]; norm_num
    · intro v
      simp only [List.mem_map, List.mem_range, Bool.and_eq_true, beq_iff_eq]
      constructor
      · rintro ⟨i, hi, rfl⟩
        obtain ⟨q, hq, he⟩ := (h.keys (0, [(i, 1)])).mpr
          ⟨h.nouts_pos, ⟨by simp, by simp⟩, by simpa using hi, by simp [degree]; omega⟩
        exact ⟨q, hq, he, by rw [he]; simp [degree], by rw [he]⟩
      · rintro ⟨q, hq, rfl, hd, hc⟩
        obtain ⟨_, k2, k3, _⟩ := (h.keys q.1).mp ⟨q, hq, rfl⟩
        obtain ⟨i, hi⟩ := (degree_one k2).mp hd
        exact ⟨i, k3 (i, 1) (by rw [hi]; simp), Prod.ext hc.symm hi.symm⟩
  · unfold Dt.getGradient
    rw [h.getNouts, h.getOrder]
    simp only [Res.bind_ok]
    rcases h1 with h1 | h1
    · rw [if_pos h1]
    · split
      · rfl
      · rfl

/-- C16: **the Jacobian** is in row-major order: for each component, the first-order derivatives
with respect to the first argument, the second argument, and so on. -/
theorem jacobian_spec (h : Complete d nouts order) :
    (1 ≤ order → ∃ g, d.getJacobian = .ok g ∧
      g.map some = (List.range nouts).flatMap (fun c =>
        (List.range d.nargs).map (fun i => d.map.lookup (c, [(i, 1)])))) ∧
    (order = 0 → d.getJacobian = .throw) := by
  refine ⟨fun h2 => ?_, fun h1 => ?_⟩
  · obtain ⟨be, hbe, hr⟩ := get_derivatives_spec h 1 (by norm_num)
    have hg : d.getJacobian = .ok ((d.map.filter (fun p => degree p.1.2 == 1)).map (·.2)) := by
      unfold Dt.getJacobian Dt.values
      rw [h.getNouts, h.getOrder, hbe]
      simp only [Res.bind_ok, hr]
      rw [if_neg (by have := h.nouts_pos; omega), if_neg (by omega)]
    refine ⟨_, hg, ?_⟩
    rw [h.values_of _ (ks := (List.range nouts).flatMap (fun c =>
      (List.range d.nargs).map (fun i => (c, [(i, 1)])))) ?_ ?_, List.map_flatMap]
    · congr 1; funext c; rw [List.map_map]; rfl
    · rw [List.pairwise_flatMap]
      refine ⟨fun c _ => ?_, ?_⟩
      · rw [List.pairwise_map]
        refine List.pairwise_lt_range.imp fun {a b} hab => ?_
        refine .inr ⟨by simp [degree], .inr ⟨rfl, a, fun j hj => ?_, ?_⟩⟩
        · rw [dense_cons, dense_cons, if_neg (by simp; omega), if_neg (by simp; omega)]
        · rw [dense_cons, dense_cons, if_neg (by simp; omega), if_pos rfl, dense_nil]; norm_num
      · refine List.pairwise_lt_range.imp fun {a b} hab => ?_
        intro x hx y hy
        simp only [List.mem_map, List.mem_range] at hx hy
        obtain ⟨i, _, rfl⟩ := hx
        obtain ⟨j, _, rfl⟩ := hy
        exact .inr ⟨by simp [degree], .inl hab⟩
    · intro v
      simp only [List.mem_flatMap, List.mem_map, List.mem_range, beq_iff_eq]
      constructor
      · rintro ⟨c, hc, i, hi, rfl⟩
        obtain ⟨q, hq, he⟩ := (h.keys (c, [(i, 1)])).mpr
          ⟨hc, ⟨by simp, by simp⟩, by simpa using hi, by simp [degree]; omega⟩
        exact ⟨q, hq, he, by rw [he]; simp [degree]⟩
      · rintro ⟨q, hq, rfl, hd⟩
        obtain ⟨k1, k2, k3, _⟩ := (h.keys q.1).mp ⟨q, hq, rfl⟩
        obtain ⟨i, hi⟩ := (degree_one k2).mp hd
        exact ⟨q.1.1, k1, i, k3 (i, 1) (by rw [hi]; simp), Prod.ext rfl hi.symm⟩
  · unfold Dt.getJacobian
    rw [h.getNouts, h.getOrder]
    simp only [Res.bind_ok]
    split
    · rfl
    · rfl

/-- C16: **the Hessian** of a component is the upper triangle in row-major order. -/
theorem hessian_spec (h : Complete d nouts order) (c : Nat) :
    (2 ≤ order → c < nouts → ∃ g, d.getHessian c = .ok g ∧
      g.map some = (List.range d.nargs).flatMap (fun i =>
        (List.range (d.nargs - i)).map (fun k => d.map.lookup (c, second i (i + k))))) ∧
    (order < 2 ∨ nouts ≤ c → d.getHessian c = .throw) := by
  refine ⟨fun h2 hc => ?_, fun h1 => ?_⟩
  · obtain ⟨be, hbe, hr⟩ := get_derivatives_component h c 2 (by norm_num)
    have hg : d.getHessian c = .ok ((d.map.filter
        (fun p => degree p.1.2 == 2 && p.1.1 == c)).map (·.2)) := by
      unfold Dt.getHessian Dt.values
      rw [h.getNouts, h.getOrder, hbe]
      simp only [Res.bind_ok, hr]
      rw [if_neg (by omega), if_neg (by omega)]
    refine ⟨_, hg, ?_⟩
    have hdeg : ∀ i j, degree (second i j) = 2 := by
      intro i j; unfold second; split <;> simp [degree]
    have hden : ∀ i j k, i ≤ j → dense (second i j) k =
        (if i = k then 1 else 0) + (if j = k then 1 else 0) := by
      intro i j k hij
      unfold second
      split
      · rename_i he
        subst he
        rw [dense_cons, dense_nil]
        split <;> rfl
      · rename_i he
        rw [dense_cons, dense_cons, dense_nil]
        simp only
        split
        · rw [if_neg (by omega)]
        · split <;> rfl
    rw [h.values_of _ (ks := (List.range d.nargs).flatMap (fun i =>
      (List.range (d.nargs - i)).map (fun k => (c, second i (i + k))))) ?_ ?_, List.map_flatMap]
    · congr 1; funext i; rw [List.map_map]; rfl
    · rw [List.pairwise_flatMap]
      refine ⟨fun i _ => ?_, ?_⟩
      · rw [List.pairwise_map]
        refine List.pairwise_lt_range.imp fun {a b} hab => ?_
        refine .inr ⟨by rw [hdeg, hdeg], .inr ⟨rfl, i + a, fun j hj => ?_, ?_⟩⟩
        · rw [hden _ _ _ (by omega), hden _ _ _ (by omega), if_neg (show ¬ i + a = j by omega),
            if_neg (show ¬ i + b = j by omega)]
        · rw [hden _ _ _ (by omega), hden _ _ _ (by omega), if_pos (rfl : i + a = i + a),
            if_neg (show ¬ i + b = i + a by omega)]
          omega
      · refine List.pairwise_lt_range.imp fun {a b} hab => ?_
        intro x hx y hy
        simp only [List.mem_map, List.mem_range] at hx hy
        obtain ⟨i, _, rfl⟩ := hx
        obtain ⟨j, _, rfl⟩ := hy
        refine .inr ⟨by rw [hdeg, hdeg], .inr ⟨rfl, a, fun k hk => ?_, ?_⟩⟩
        · rw [hden _ _ _ (by omega), hden _ _ _ (by omega), if_neg (show ¬ a = k by omega),
            if_neg (show ¬ a + i = k by omega), if_neg (show ¬ b = k by omega),
            if_neg (show ¬ b + j = k by omega)]
        · rw [hden _ _ _ (by omega), hden _ _ _ (by omega), if_pos (rfl : a = a),
            if_neg (show ¬ b = a by omega), if_neg (show ¬ b + j = a by omega)]
          omega
    · intro v
      simp only [List.mem_flatMap, List.mem_map, List.mem_range, Bool.and_eq_true, beq_iff_eq]
      constructor
      · rintro ⟨i, hi, k, hk, rfl⟩
        have hs : Sane (second i (i + k)) := by
          unfold second
          split
          · exact ⟨by simp, by simp⟩
          · exact ⟨by simp; omega, by simp⟩
        have hb : ∀ q ∈ second i (i + k), q.1 < d.nargs := by
          unfold second
          split
          · simpa using hi
          · simp; omega
        obtain ⟨q, hq, he⟩ := (h.keys (c, second i (i + k))).mpr ⟨hc, hs, hb, by rw [hdeg]; exact h2⟩
        exact ⟨q, hq, he, by rw [he]; exact hdeg _ _, by rw [he]⟩
      · rintro ⟨q, hq, rfl, hd, hc'⟩
        obtain ⟨_, k2, k3, _⟩ := (h.keys q.1).mp ⟨q, hq, rfl⟩
        obtain ⟨i, j, hij, hl⟩ := (degree_two k2).mp hd
        have hj : j < d.nargs := by
          refine k3 (j, if i = j then 2 else 1) ?_
          rw [hl, second]
          split
          · rename_i he; subst he; simp
          · simp
        exact ⟨i, by omega, j - i, by omega, by
          rw [show i + (j - i) = j by omega, ← hc', ← hl]⟩
  · unfold Dt.getHessian
    rw [h.getNouts, h.getOrder]
    simp only [Res.bind_ok]
    rcases h1 with h1 | h1
    · split
      · rfl
      · rfl
    · rw [if_pos h1]

/-! ### Non-vacuity -/

/-- The derivatives up to the second order of a function with two components and two arguments. -/
def exTensor : Dt String where
  map := [((0, []), "f"), ((1, []), "g"),
    ((0, [(0, 1)]), "fx"), ((0, [(1, 1)]), "fy"), ((1, [(0, 1)]), "gx"), ((1, [(1, 1)]), "gy"),
    ((0, [(0, 2)]), "fxx"), ((0, [(0, 1), (1, 1)]), "fxy"), ((0, [(1, 2)]), "fyy"),
    ((1, [(0, 2)]), "gxx"), ((1, [(0, 1), (1, 1)]), "gxy"), ((1, [(1, 2)]), "gyy")]
  nargs := 2

/-- It is complete. -/
theorem exTensor_complete : Complete exTensor 2 2 where
  sorted := by
    have h : exTensor.map.Pairwise (fun p q => Sane p.1.2 ∧ Sane q.1.2 ∧ degree p.1.2 < 2 ^ 32 ∧
        degree q.1.2 < 2 ^ 32 ∧ cmp p.1 q.1 = .ok true) := by decide +kernel
    refine h.imp ?_
    rintro p q ⟨ha, hb, h1, h2, h⟩
    obtain ⟨c, hc, hl⟩ := cmp_eq h1 h2 ha hb
    rw [hc] at h
    injection h with h
    exact hl.mp h
  keys := by
    intro v
    constructor
    · have h : ∀ p ∈ exTensor.map, p.1.1 < 2 ∧ Sane p.1.2 ∧ (∀ q ∈ p.1.2, q.1 < 2) ∧
        degree p.1.2 ≤ 2 := by decide +kernel
      rintro ⟨p, hp, rfl⟩
      exact h p hp
    · obtain ⟨c, l⟩ := v
      rintro ⟨hc, hs, hb, hd⟩
      have hin : ∀ c < 2, ((c, []) : SIdx) ∈ exTensor.map.map (·.1) ∧
          (∀ i < 2, ((c, [(i, 1)]) : SIdx) ∈ exTensor.map.map (·.1)) ∧
          (∀ i < 2, ∀ j < 2, i ≤ j → ((c, second i j) : SIdx) ∈ exTensor.map.map (·.1)) := by
        have e : exTensor.map.map (·.1) = [(0, []), (1, []), (0, [(0, 1)]), (0, [(1, 1)]),
          (1, [(0, 1)]), (1, [(1, 1)]), (0, [(0, 2)]), (0, [(0, 1), (1, 1)]), (0, [(1, 2)]),
          (1, [(0, 2)]), (1, [(0, 1), (1, 1)]), (1, [(1, 2)])] := rfl
        rw [e]
        intro c hc
        refine ⟨?_, fun i hi => ?_, fun i hi j hj hij => ?_⟩
        · interval_cases c <;> decide
        · interval_cases c <;> interval_cases i <;> decide
        · interval_cases c <;> interval_cases i <;> interval_cases j <;>
            first | decide | omega
      suffices hm : (c, l) ∈ exTensor.map.map (·.1) by simpa using hm
      simp only at hc hs hb hd
      have hb : ∀ q ∈ l, q.1 < 2 := hb
      rcases Nat.lt_or_ge (degree l) 1 with h0 | h0
      · have : l = [] := by
          by_contra hne; have := degree_pos hs hne; omega
        rw [this]; exact (hin c hc).1
      · rcases Nat.lt_or_ge (degree l) 2 with h1 | h1
        · obtain ⟨i, rfl⟩ := (degree_one hs).mp (by omega)
          exact (hin c hc).2.1 i (hb (i, 1) (by simp))
        · obtain ⟨i, j, hij, rfl⟩ := (degree_two hs).mp (by omega)
          have hj : j < 2 := by
            refine hb (j, if i = j then 2 else 1) ?_
            rw [second]
            split
            · rename_i he; subst he; simp
            · simp
          exact (hin c hc).2.2 i (by omega) j hj hij
  nouts_pos := by norm_num
  nargs_pos := by norm_num [exTensor]
  nargs_fits := by norm_num [exTensor]
  order_fits := by norm_num

example : exTensor.getJacobian = .ok ["fx", "fy", "gx", "gy"] := by with_unfolding_all rfl
example : exTensor.getHessian 1 = .ok ["gxx", "gxy", "gyy"] := by with_unfolding_all rfl
example : exTensor.getGradient = .throw := by with_unfolding_all rfl
example : exTensor.atDense [0, 1, 1] = .ok "fxy" := by with_unfolding_all rfl
example : exTensor.at (1, [(1, 1), (0, 1)]) = .throw := by with_unfolding_all rfl
example : exTensor.indexOf (1, [(0, 1)]) = .ok 4 := by with_unfolding_all rfl

end Heyoka.Dtens
