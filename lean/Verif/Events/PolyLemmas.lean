import Verif.Events.Model
import Mathlib.Algebra.BigOperators.Fin
import Mathlib.Data.Nat.Choose.Sum
import Mathlib.Tactic.Ring
import Mathlib.Tactic.FieldSimp
import Mathlib.Tactic.Linarith
import Mathlib.Tactic.LinearCombination

/-!
# Polynomial operations used by the event detection
-/

namespace Heyoka.Events

variable {K : Type*}

section
variable [Field K]

/-- Value of a polynomial with the given coefficients. -/
def pev : List K → K → K
  | [], _ => 0
  | a :: l, x => a + x * pev l x

/-- Value of the derivative of a polynomial with the given coefficients. -/
def pdv : List K → K → K
  | [], _ => 0
  | _ :: l, x => pev l x + x * pdv l x

@[simp] theorem pev_nil (x : K) : pev [] x = 0 := rfl
@[simp] theorem pev_cons (a : K) (l : List K) (x : K) : pev (a :: l) x = a + x * pev l x := rfl
@[simp] theorem pdv_nil (x : K) : pdv [] x = 0 := rfl
@[simp] theorem pdv_cons (a : K) (l : List K) (x : K) : pdv (a :: l) x = pev l x + x * pdv l x := rfl

theorem pev_append (a b : List K) (x : K) : pev (a ++ b) x = pev a x + x ^ a.length * pev b x := by
  induction a with
  | nil => simp
  | cons c a ih => simp only [List.cons_append, pev_cons, ih, List.length_cons, pow_succ]; ring

theorem pdv_append (a b : List K) (x : K) :
    pdv (a ++ b) x = pdv a x + (a.length : K) * x ^ (a.length - 1) * pev b x + x ^ a.length * pdv b x := by
  induction a with
  | nil => simp
  | cons c a ih =>
    simp only [List.cons_append, pdv_cons, ih, pev_append, List.length_cons]
    cases h : a.length with
    | zero => simp; ring
    | succ n => simp only [Nat.add_sub_cancel, pow_succ]; push_cast; ring

theorem pev_replicate_zero (n : Nat) (x : K) : pev (List.replicate n 0) x = 0 := by
  induction n with
  | zero => rfl
  | succ n ih => simp [List.replicate_succ, ih]

theorem pev_reverse (l : List K) {x : K} (hx : x ≠ 0) : pev l.reverse x * x = x ^ l.length * pev l x⁻¹ := by
  induction l with
  | nil => simp
  | cons a l ih =>
    rw [List.reverse_cons, pev_append, add_mul, ih, List.length_reverse]
    simp only [pev_cons, pev_nil, List.length_cons, pow_succ]
    field_simp
    ring

/-- The value as a sum. -/
theorem pev_eq_sum (l : List K) (x : K) : pev l x = ∑ i : Fin l.length, l[i] * x ^ (i : Nat) := by
  induction l with
  | nil => simp
  | cons a l ih =>
    rw [pev_cons, ih]
    simp only [List.length_cons]
    rw [Fin.sum_univ_succ, Finset.mul_sum]
    simp only [Fin.getElem_fin, Fin.val_zero, List.getElem_cons_zero, pow_zero, mul_one, Fin.val_succ,
      List.getElem_cons_succ]
    congr 1
    refine Finset.sum_congr rfl fun i _ => ?_
    rw [pow_succ]; ring

/-- The derivative as a sum. -/
theorem pdv_eq_sum (l : List K) (x : K) :
    pdv l x = ∑ i : Fin l.length, (i : Nat) * l[i] * x ^ ((i : Nat) - 1) := by
  induction l with
  | nil => simp
  | cons a l ih =>
    rw [pdv_cons, ih, pev_eq_sum]
    simp only [List.length_cons]
    rw [Fin.sum_univ_succ, Finset.mul_sum, ← Finset.sum_add_distrib]
    simp only [Fin.getElem_fin, Fin.val_zero, Nat.cast_zero, zero_mul, zero_add, Fin.val_succ,
      List.getElem_cons_succ, Nat.add_sub_cancel]
    refine Finset.sum_congr rfl fun i _ => ?_
    generalize l[(i : Nat)] = c
    cases (i : Nat) with
    | zero => simp
    | succ n => simp only [Nat.add_sub_cancel, pow_succ]; push_cast; ring

/-! ## Rescaling -/

@[simp] theorem rescaleGo_length [LinearOrder K] (s : K) : ∀ (l : List K) (f : K),
    (rescaleGo s f l).length = l.length := by
  intro l
  induction l with
  | nil => intro f; rfl
  | cons a l ih => intro f; simp [rescaleGo, ih]

theorem pev_rescaleGo [LinearOrder K] (s : K) : ∀ (l : List K) (f x : K),
    pev (rescaleGo s f l) x = f * pev l (s * x) := by
  intro l
  induction l with
  | nil => intro f x; simp [rescaleGo]
  | cons a l ih => intro f x; simp only [rescaleGo, pev_cons, ih]; ring

@[simp] theorem polyRescale_length [LinearOrder K] (s : K) (l : List K) : (polyRescale s l).length = l.length := by
  simp [polyRescale]

theorem pev_polyRescale [LinearOrder K] (s : K) (l : List K) (x : K) : pev (polyRescale s l) x = pev l (s * x) := by
  simp [polyRescale, pev_rescaleGo]

theorem rescaleGo_append [LinearOrder K] (s : K) (a : K) : ∀ (l : List K) (f : K),
    rescaleGo s f (l ++ [a]) = rescaleGo s f l ++ [a * (f * s ^ l.length)] := by
  intro l
  induction l with
  | nil => intro f; simp [rescaleGo]
  | cons b l ih =>
    intro f
    simp only [List.cons_append, rescaleGo, ih, List.length_cons, pow_succ]
    congr 4
    ring

@[simp] theorem polyRescaleP2_length [LinearOrder K] (l : List K) : (polyRescaleP2 l).length = l.length := by
  simp [polyRescaleP2]

theorem pev_polyRescaleP2 [LinearOrder K] [IsStrictOrderedRing K] (l : List K) (x : K) :
    pev (polyRescaleP2 l) x * 2 = 2 ^ l.length * pev l (x / 2) := by
  induction l with
  | nil => simp [polyRescaleP2, rescaleGo]
  | cons a l ih =>
    have : polyRescaleP2 (a :: l) = a * 2 ^ l.length :: polyRescaleP2 l := by
      simp [polyRescaleP2, rescaleGo_append]
    rw [this]
    simp only [pev_cons, List.length_cons, pow_succ]
    linear_combination x * ih

/-! ## Evaluation -/

theorem foldl_horner (cs : List K) : ∀ (r x : K),
    cs.foldl (fun r c => c + r * x) r = pev (cs.reverse ++ [r]) x := by
  induction cs with
  | nil => intro r x; simp
  | cons c cs ih =>
    intro r x
    rw [List.foldl_cons, ih, List.reverse_cons, List.append_assoc, pev_append, pev_append]
    simp only [List.singleton_append, pev_cons, pev_nil]
    ring

theorem polyEval_ok [LinearOrder K] {l : List K} (h : l ≠ []) (x : K) : polyEval l x = .ok (pev l x) := by
  unfold polyEval
  cases hr : l.reverse with
  | nil => simp [h] at hr
  | cons c cs =>
    simp only
    rw [foldl_horner, ← List.reverse_cons, ← hr, List.reverse_reverse]

theorem evalOneGo_eq [LinearOrder K] (x : K) : ∀ (cs : List K) (r : K),
    evalOneGo x cs cs.length r = ∑ i ∈ Finset.range cs.length,
      ((i + 1 : Nat) : K) * (cs.reverse.getD i 0) * x ^ i + x ^ cs.length * r := by
  intro cs
  induction cs with
  | nil => intro r; simp [evalOneGo]
  | cons c cs ih =>
    intro r
    simp only [evalOneGo, List.length_cons, Nat.add_sub_cancel, ih]
    rw [Finset.sum_range_succ]
    have h1 : ((c :: cs).reverse.getD cs.length 0) = c := by
      simp [List.getD_eq_getElem?_getD]
    rw [h1]
    have h2 : ∑ i ∈ Finset.range cs.length, ((i + 1 : Nat) : K) * ((c :: cs).reverse.getD i 0) * x ^ i
        = ∑ i ∈ Finset.range cs.length, ((i + 1 : Nat) : K) * (cs.reverse.getD i 0) * x ^ i := by
      refine Finset.sum_congr rfl fun i hi => ?_
      have hi' : i < cs.reverse.length := by simpa using hi
      rw [List.getD_eq_getElem?_getD, List.getD_eq_getElem?_getD, List.reverse_cons,
        List.getElem?_append_left hi']
    rw [h2, pow_succ]
    ring

/-- `poly_eval_1()` computes the derivative. -/
theorem polyEval1_ok [LinearOrder K] {l : List K} (h : 3 ≤ l.length) (x : K) : polyEval1 l x = .ok (pdv l x) := by
  unfold polyEval1
  have hlen : l.reverse.length = l.length := List.length_reverse
  cases hr : l.reverse with
  | nil => rw [hr] at hlen; simp at hlen; omega
  | cons cn cs =>
    rw [hr, List.length_cons] at hlen
    simp only
    rw [if_neg (by omega)]
    have hl : l = cs.reverse ++ [cn] := by rw [← List.reverse_cons, ← hr, List.reverse_reverse]
    obtain ⟨ds, c0, hcs⟩ : ∃ ds c0, cs = ds ++ [c0] :=
      ⟨cs.dropLast, cs.getLast (by intro h0; rw [h0] at hlen; simp at hlen; omega),
        (List.dropLast_append_getLast _).symm⟩
    have hl2 : l = (c0 :: ds.reverse) ++ [cn] := by rw [hl, hcs]; simp
    have hdl : cs.dropLast = ds := by rw [hcs]; simp
    have hcl : cs.length - 1 = ds.length := by rw [hcs]; simp
    have hcl2 : cs.length = ds.length + 1 := by rw [hcs]; simp
    rw [hdl, hcl, evalOneGo_eq, hl2, pdv_append]
    congr 1
    simp only [List.length_cons, List.length_reverse, Nat.add_sub_cancel, pev_cons, pev_nil, pdv_cons,
      pdv_nil, mul_zero, add_zero, hcl2]
    have : ∑ i ∈ Finset.range ds.length, ((i + 1 : Nat) : K) * ds.reverse.getD i 0 * x ^ i
        = pev ds.reverse x + x * pdv ds.reverse x := by
      have e : pev ds.reverse x + x * pdv ds.reverse x = pdv (c0 :: ds.reverse) x := rfl
      rw [e, pdv_eq_sum]
      simp only [List.length_cons]
      rw [Fin.sum_univ_succ]
      simp only [Fin.getElem_fin, Fin.val_zero, Nat.cast_zero, zero_mul, zero_add, Fin.val_succ,
        List.getElem_cons_succ, Nat.add_sub_cancel]
      rw [Finset.sum_range (n := ds.length)] 
      refine Finset.sum_bij (fun i _ => ⟨i.1, by simp⟩) (by simp) ?_ ?_ ?_
      · intro a _ b _ hab; simpa [Fin.ext_iff] using hab
      · intro b _; exact ⟨⟨b.1, by simpa using b.2⟩, by simp, rfl⟩
      · intro i _
        simp only
        rw [List.getD_eq_getElem?_getD, List.getElem?_eq_getElem (by simp)]
        rfl
    rw [this]
    ring

/-! ## Translation -/

theorem flatMap_getElem? {α : Type*} {w : Nat} {f : Nat → List α} (hf : ∀ i, (f i).length = w) :
    ∀ (m i k : Nat), i < m → k < w → ((List.range m).flatMap f)[i * w + k]? = (f i)[k]? := by
  intro m
  induction m with
  | zero => intro i k h; omega
  | succ m ih =>
    intro i k hi hk
    have hlen : ((List.range m).flatMap f).length = m * w := by
      rw [List.length_flatMap]
      simp [hf]
    rw [List.range_succ, List.flatMap_append, List.flatMap_singleton]
    by_cases him : i < m
    · rw [List.getElem?_append_left, ih i k him hk]
      rw [hlen]
      calc i * w + k < i * w + w := by omega
        _ = (i + 1) * w := by ring
        _ ≤ m * w := Nat.mul_le_mul_right _ him
    · have : i = m := by omega
      subst this
      rw [List.getElem?_append_right (by omega), hlen]
      congr 1
      omega

theorem bcArray_get [LinearOrder K] {n i k : Nat} (hi : i ≤ n) (hk : k ≤ i) :
    rd (bcArray n : List K) (i * (n + 1) + k) = .ok (Nat.choose i k : K) := by
  unfold rd bcArray
  rw [flatMap_getElem? (w := n + 1) (by intro i; simp) (n + 1) i k (by omega) (by omega)]
  rw [List.getElem?_map, List.getElem?_range (by omega)]
  simp [hk]

theorem rd_ok {α : Type*} {l : List α} {i : Nat} (h : i < l.length) : rd l i = .ok l[i] := by
  simp [rd, h]

theorem pev_set (x d : K) : ∀ (l : List K) (k : Nat) (h : k < l.length),
    pev (l.set k (l[k] + d)) x = pev l x + d * x ^ k := by
  intro l
  induction l with
  | nil => intro k h; simp at h
  | cons a l ih =>
    intro k h
    cases k with
    | zero => simp; ring
    | succ k =>
      simp only [List.set_cons_succ, pev_cons, List.getElem_cons_succ]
      rw [ih k (by simpa using h), pow_succ]
      ring

theorem translateInner_ok [LinearOrder K] {n i : Nat} (hi : i ≤ n) (ai : K) : ∀ (ks : List Nat) (out : List K),
    (∀ k ∈ ks, k ≤ i) → out.length = n + 1 →
    ∃ out', translateInner n ai i ks out = .ok out' ∧ out'.length = n + 1 ∧
      ∀ x, pev out' x = pev out x + ai * (ks.map fun k => (Nat.choose i k : K) * x ^ k).sum := by
  intro ks
  induction ks with
  | nil => intro out _ h; exact ⟨out, rfl, h, by simp⟩
  | cons k ks ih =>
    intro out hks hlen
    have hk : k ≤ i := hks k List.mem_cons_self
    obtain ⟨out', h1, h2, h3⟩ := ih (out.set k (out[k]'(by omega) + ai * (Nat.choose i k : K)))
      (fun j hj => hks j (List.mem_cons_of_mem _ hj)) (by simpa using hlen)
    refine ⟨out', ?_, h2, ?_⟩
    · simp only [translateInner, bcArray_get hi hk, Res.bind_ok, rd_ok (show k < out.length by omega), h1]
    · intro x
      rw [h3, pev_set, List.map_cons, List.sum_cons]
      ring

theorem sum_choose (i : Nat) (x : K) :
    ((List.range (i + 1)).map fun k => (Nat.choose i k : K) * x ^ k).sum = (x + 1) ^ i := by
  rw [add_pow]
  simp only [one_pow, mul_one]
  rw [← List.sum_toFinset _ List.nodup_range, List.toFinset_range]
  exact Finset.sum_congr rfl fun k _ => mul_comm _ _

theorem translateOuter_ok [LinearOrder K] {n : Nat} {cf : List K} (hcf : cf.length = n + 1) :
    ∀ (m : Nat), m ≤ n + 1 → ∀ (out : List K), out.length = n + 1 →
    ∃ out', translateOuter n cf ((List.range (n + 1)).drop (n + 1 - m)) out = .ok out' ∧
      out'.length = n + 1 ∧
      ∀ x, pev out' x = pev out x + (x + 1) ^ (n + 1 - m) * pev (cf.drop (n + 1 - m)) (x + 1) := by
  intro m
  induction m with
  | zero =>
    intro _ out h
    refine ⟨out, ?_, h, ?_⟩
    · have : (List.range (n + 1)).drop (n + 1) = [] := by simp
      simp only [Nat.sub_zero, this, translateOuter]
    · intro x
      rw [Nat.sub_zero, List.drop_of_length_le (by omega)]; simp
  | succ m ih =>
    intro hm out hlen
    obtain ⟨i, hi⟩ : ∃ i, n + 1 - (m + 1) = i := ⟨_, rfl⟩
    have hi2 : n + 1 - m = i + 1 := by omega
    have hin : i < n + 1 := by omega
    rw [hi]
    have hd : (List.range (n + 1)).drop i = i :: (List.range (n + 1)).drop (i + 1) := by
      rw [List.drop_eq_getElem_cons (by simpa using hin)]; simp
    have hc : cf.drop i = cf[i] :: cf.drop (i + 1) := List.drop_eq_getElem_cons (by omega)
    obtain ⟨out1, h1, h2, h3⟩ := translateInner_ok (n := n) (i := i) (by omega) (cf[i]'(by omega))
      (List.range (i + 1)) out (by intro k hk; have := List.mem_range.mp hk; omega) hlen
    rw [hi2] at ih
    obtain ⟨out2, g1, g2, g3⟩ := ih (by omega) out1 h2
    refine ⟨out2, ?_, g2, ?_⟩
    · rw [hd]
      simp only [translateOuter, rd_ok (show i < cf.length by omega), Res.bind_ok, h1, g1]
    · intro x
      rw [g3, h3, sum_choose, hc, pev_cons, pow_succ]
      ring

/-- The translation by 1. -/
theorem polyTranslate1_ok [LinearOrder K] {n : Nat} {cf : List K} (hcf : cf.length = n + 1) :
    ∃ t, polyTranslate1 n cf = .ok t ∧ t.length = n + 1 ∧ ∀ x, pev t x = pev cf (x + 1) := by
  obtain ⟨t, h1, h2, h3⟩ := translateOuter_ok hcf (n + 1) le_rfl (List.replicate (n + 1) 0) (by simp)
  refine ⟨t, ?_, h2, ?_⟩
  · simpa [polyTranslate1] using h1
  · intro x
    rw [h3, pev_replicate_zero]
    simp

end

end Heyoka.Events
