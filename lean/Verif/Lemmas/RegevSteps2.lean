import Verif.Lemmas.RegevSteps

namespace Verif
open Spec Regev
open scoped BigOperators

/-! ### The common identity behind the linear constraints -/

/-- `Σ_j w_j·(a_j - Σ_i N_i·ρ_ij)` for `N = V - S·C - T`. -/
theorem batch_identity {R : Type} [CommRing R] (n m K : ℕ) (a w V T S : ℕ → R) (C ρ : ℕ → ℕ → R) :
    ∑ j ∈ Finset.range m, w j * (a j - ∑ i ∈ Finset.range n,
        (V i - (∑ k ∈ Finset.range K, S k * C k i) - T i) * ρ i j) =
      ∑ j ∈ Finset.range m, w j * a j
      + ∑ k ∈ Finset.range K, (∑ i ∈ Finset.range n, C k i * ∑ j ∈ Finset.range m, ρ i j * w j) * S k
      + ∑ i ∈ Finset.range n, T i * (∑ j ∈ Finset.range m, ρ i j * w j)
      - ∑ i ∈ Finset.range n, V i * (∑ j ∈ Finset.range m, ρ i j * w j) := by
  have h1 : ∀ N : ℕ → R, ∑ j ∈ Finset.range m, w j * ∑ i ∈ Finset.range n, N i * ρ i j =
      ∑ i ∈ Finset.range n, N i * ∑ j ∈ Finset.range m, ρ i j * w j := by
    intro N
    simp only [Finset.mul_sum]
    rw [Finset.sum_comm]
    refine Finset.sum_congr rfl fun i _ => Finset.sum_congr rfl fun j _ => by ring
  simp only [mul_sub, Finset.sum_sub_distrib]
  rw [h1]
  simp only [sub_mul, Finset.sum_sub_distrib]
  have h2 : ∑ i ∈ Finset.range n, (∑ k ∈ Finset.range K, S k * C k i) *
      ∑ j ∈ Finset.range m, ρ i j * w j =
      ∑ k ∈ Finset.range K, (∑ i ∈ Finset.range n, C k i * ∑ j ∈ Finset.range m, ρ i j * w j) * S k := by
    simp only [Finset.sum_mul _ _ (∑ j ∈ Finset.range m, _)]
    rw [Finset.sum_comm]
    refine Finset.sum_congr rfl fun k _ => ?_
    rw [Finset.sum_mul]
    exact Finset.sum_congr rfl fun i _ => by ring
  rw [h2]
  ring

section
variable {q : ℕ} [Fact q.Prime]

/-- Constraints `s` and `s+1` have variables in `K` and together say `d x = 0`. -/
def Says (cs : List (LinConstraint (ZMod q))) (s : ℕ) (K : ℕ → Prop)
    (d : (ℕ → ZMod q) → Elt (ZMod q) 2) : Prop :=
  ∃ e f, Pair (cs.drop s) K e f ∧ ∀ x, f x - e = d x

theorem Says.slotSat {cs : List (LinConstraint (ZMod q))} {s K d} (h : Says cs s K d)
    (x : ℕ → ZMod q) : SlotSat cs s x ↔ d x = 0 := by
  obtain ⟨e, f, hp, hd⟩ := h
  rw [← hd, sub_eq_zero, ← hp.sat x]
  obtain ⟨c, hc, -⟩ := hp 0
  obtain ⟨c', hc', -⟩ := hp 1
  rw [List.getElem?_drop] at hc hc'
  constructor
  · rintro ⟨a, b, h1, h2, h3, h4⟩ i (rfl | rfl) c'' hc''
    · rw [h1] at hc''; obtain rfl := Option.some.inj hc''; exact h3
    · rw [h2] at hc''; obtain rfl := Option.some.inj hc''; exact h4
  · intro h
    exact ⟨c, c', hc, hc', h s (Or.inl rfl) c hc, h (s + 1) (Or.inr rfl) c' hc'⟩

theorem Says.other {s t : ℕ} {cs out : List (LinConstraint (ZMod q))} {K d}
    (h : Says cs t K d) (ho : Outside s cs out) (hst : s + 2 ≤ t ∨ t + 2 ≤ s) : Says out t K d := by
  obtain ⟨e, f, hp, hd⟩ := h
  exact ⟨e, f, hp.other ho hst, hd⟩

/-- Sorted terms and bounded variables of the constraints `s` and `s+1`. -/
theorem Says.good {cs : List (LinConstraint (ZMod q))} {s K d} (h : Says cs s K d) (i : ℕ)
    (hi : i = s ∨ i = s + 1) : ∃ c, cs[i]? = some c ∧ Sorted c.terms ∧ ∀ k ∈ keys c.terms, K k := by
  obtain ⟨e, f, hp, -⟩ := h
  have : ∃ j : Fin 2, i = s + j := by
    rcases hi with rfl | rfl
    · exact ⟨0, rfl⟩
    · exact ⟨1, rfl⟩
  obtain ⟨j, rfl⟩ := this
  obtain ⟨c, h1, h2, h3, -⟩ := hp j
  rw [List.getElem?_drop] at h1
  exact ⟨c, h1, h2, h3⟩

theorem onSlot_says {cs : List (LinConstraint (ZMod q))} {s : ℕ} (hs : s + 2 ≤ cs.length)
    {g : List (LinConstraint (ZMod q)) → Res (List (LinConstraint (ZMod q)))} {K d}
    (h : ∃ out, g (cs.drop s) = .ok out ∧ Says out 0 K d ∧ Beyond (cs.drop s) out) :
    ∃ out, onSlot cs s g = .ok out ∧ Says out s K d ∧ Outside s cs out := by
  obtain ⟨out, h1, ⟨e, f, hp, hd⟩, h3⟩ := h
  obtain ⟨o, h4, h5, h6⟩ := onSlot_spec hs ⟨out, h1, hp, h3⟩
  exact ⟨o, h4, ⟨e, f, h5, hd⟩, h6⟩

/-! ### Padding -/

theorem padTo_ok {t : Tests} (hP : NoFalsePrimes t.probPrime) {comp : EVec q 2} {bound : ℤ}
    (hne : comp ≠ []) (hb : 2 * |bound| < q) {p : Padded q} (h : padTo t comp bound = .ok p) :
    p.comp = comp ∧ p.pad.length = 2 ∧ (normSq (coeffs (p.comp ++ p.pad)) = bound ^ 2 ∨
      FourSq.decompose4 t.single t.probPrime (bound ^ 2 - normSq (coeffs p.comp)) =
        .ok [-1, -1, -1, -1]) ∧ normSq (coeffs (p.comp ++ p.pad)) ≤ bound ^ 2 + 4 := by
  unfold padTo at h
  by_cases hv : normSq (coeffs comp) ≤ bound ^ 2
  · obtain ⟨pad, h1, h2, h3⟩ := Props.C32_elements t.single t.probPrime hP comp hne bound hb hv
    rw [h1, Res.ok_bind] at h
    obtain rfl := Res.ok.inj h
    rcases h3 with h3 | ⟨h3, h4⟩
    · exact ⟨rfl, h2, Or.inl h3, by simp only; omega⟩
    · exact ⟨rfl, h2, Or.inr h3, by simp only; omega⟩
  · rw [Props.C32_elements_throws t.single t.probPrime comp bound hne (by omega)] at h
    cases h

theorem padTo_total {t : Tests} (hP : NoFalsePrimes t.probPrime) {comp : EVec q 2} {bound : ℤ}
    (hne : comp ≠ []) (hb : 2 * |bound| < q) :
    (∃ p, padTo t comp bound = .ok p) ↔ normSq (coeffs comp) ≤ bound ^ 2 := by
  unfold padTo
  constructor
  · rintro ⟨p, h⟩
    by_contra hv
    rw [Props.C32_elements_throws t.single t.probPrime comp bound hne (by omega)] at h
    cases h
  · intro hv
    obtain ⟨pad, h1, h2, h3⟩ := Props.C32_elements t.single t.probPrime hP comp hne bound hb hv
    exact ⟨_, by rw [h1, Res.ok_bind]⟩

/-! ### Norm constraints -/

/-- The index sets of the norm constraints lie in their blocks. -/
def NormInv (norm : List (QuadConstraint (ZMod q))) : Prop :=
  norm.length = 10 ∧ ∀ k c, norm[k]? = some c → SortedSet c.indexes ∧
    ∀ j ∈ c.indexes, 260 * k ≤ j ∧ j < 260 * k + 260

theorem setNorm_eq {norm : List (QuadConstraint (ZMod q))} (h : NormInv norm) {k : ℕ} (hk : k < 10)
    (bound : ℤ) : setNorm norm k bound (260 * k) (260 * k + 256) =
      .ok (norm.set k ⟨List.range' (260 * k) 260, convBI (bound * bound)⟩) := by
  have hk' : k < norm.length := by rw [h.1]; exact hk
  have hc := List.getElem?_eq_getElem hk'
  obtain ⟨hs, hj⟩ := h.2 k _ hc
  unfold setNorm
  rw [rd_ok hk', Res.ok_bind]
  obtain ⟨s1, m1⟩ := Props.C40_range _ hs (260 * k) 256 (by omega)
  obtain ⟨s2, m2⟩ := Props.C40_range _ s1 (260 * k + 256) 4 (by omega)
  have : addRange2Set (addRange2Set norm[k].indexes (260 * k) JLDIM) (260 * k + 256) PAD_SIZE =
      List.range' (260 * k) 260 := by
    apply sortedSet_ext s2 (sortedSet_range' _ _)
    intro j
    rw [m2, m1, List.mem_range'_1]
    constructor
    · rintro (h | h | h)
      · omega
      · omega
      · exact hj j h
    · omega
  rw [this]

theorem NormInv.set {norm : List (QuadConstraint (ZMod q))} (h : NormInv norm) (k : ℕ) (e : ZMod q) :
    NormInv (norm.set k ⟨List.range' (260 * k) 260, e⟩) := by
  refine ⟨by rw [List.length_set, h.1], ?_⟩
  intro i c hc
  by_cases hik : k = i
  · subst hik
    rw [List.getElem?_set_self' ] at hc
    cases hn : norm[k]? with
    | none => rw [hn] at hc; cases hc
    | some d =>
      rw [hn] at hc
      obtain rfl := Option.some.inj hc
      exact ⟨sortedSet_range' _ _, fun j hj => by
        have := List.mem_range'_1.1 hj; omega⟩
  · rw [List.getElem?_set_ne hik] at hc
    exact h.2 i c hc

theorem reads_append {F : Type} {x : ℕ → F} {off : ℕ} {v w : List F} (h1 : Reads x off v)
    (h2 : Reads x (off + v.length) w) : Reads x off (v ++ w) := by
  intro i a hi
  by_cases h : i < v.length
  · rw [List.getElem?_append_left h] at hi; exact h1 i a hi
  · rw [List.getElem?_append_right (by omega)] at hi
    have := h2 _ _ hi
    rw [← this]; congr 1; omega

theorem reads_map {F : Type} {x : ℕ → F} {off : ℕ} {v : List F} (h : Reads x off v) :
    (List.range' off v.length).map x = v := by
  apply List.ext_getElem?
  intro i
  rw [List.getElem?_map]
  by_cases hi : i < v.length
  · rw [List.getElem?_range' hi, List.getElem?_eq_getElem hi]
    simp only [one_mul, Option.map_some]
    rw [h i _ (List.getElem?_eq_getElem hi)]
  · rw [List.getElem?_eq_none (by simpa using hi), List.getElem?_eq_none (by simpa using hi)]; rfl

theorem normSq_cast (v : List (ZMod q)) : ((normSq v : ℤ) : ZMod q) = (v.map fun s => s * s).sum := by
  unfold normSq
  rw [Int.cast_list_sum, List.map_map]
  congr 1
  apply List.map_congr_left
  intro s _
  simp only [Function.comp, Int.cast_pow, ZMod.coe_valMinAbs]; ring

theorem convBI_sq (b : ℤ) (h : b ^ 2 < 2 ^ 256) : (convBI (b * b) : ZMod q) = ((b ^ 2 : ℤ) : ZMod q) := by
  unfold convBI
  have h0 : ((b * b).natAbs : ℤ) = b ^ 2 := by
    rw [Int.natCast_natAbs, abs_mul_self]; ring
  have hlt : (b * b).natAbs < 2 ^ 256 := by
    have : ((b * b).natAbs : ℤ) < 2 ^ 256 := by rw [h0]; exact h
    exact_mod_cast this
  rw [Nat.mod_eq_of_lt hlt, ← Int.cast_natCast, h0]

theorem norm_sat {x : ℕ → ZMod q} {k : ℕ} {p : Padded q} {b : ℤ} (hb : b ^ 2 < 2 ^ 256)
    (hc : p.comp.length = 128) (hp : p.pad.length = 2) (h1 : Reads x (260 * k) (coeffs p.comp))
    (h2 : Reads x (260 * k + 256) (coeffs p.pad)) (hn : normSq (coeffs (p.comp ++ p.pad)) = b ^ 2) :
    QuadSat (⟨List.range' (260 * k) 260, convBI (b * b)⟩ : QuadConstraint (ZMod q)) x x := by
  have hl1 : (coeffs p.comp).length = 256 := by rw [coeffs_length, hc]
  have hl2 : (coeffs p.pad).length = 4 := by rw [coeffs_length, hp]
  have hca : coeffs (p.comp ++ p.pad) = coeffs p.comp ++ coeffs p.pad := by
    simp only [coeffs, List.flatMap_append]
  have hr := reads_map (reads_append h1 (by rw [hl1]; exact h2))
  rw [List.length_append, hl1, hl2] at hr
  unfold QuadSat
  simp only
  rw [convBI_sq b hb, ← hn, normSq_cast, hca, ← hr, List.map_map]
  rfl

/-! ### The compressed vectors -/

theorem copyTo_spec (v : EVec q 2) : ∀ (out : EVec q 2) (i : ℕ), i + v.length ≤ out.length →
    ∃ out', copyTo out i v = .ok out' ∧ out'.length = out.length ∧
      ∀ j, out'[j]? = if i ≤ j ∧ j < i + v.length then v[j - i]? else out[j]? := by
  induction v with
  | nil =>
    intro out i _
    exact ⟨out, rfl, rfl, fun j => by rw [if_neg (by simp)]⟩
  | cons a v ih =>
    intro out i h
    simp only [List.length_cons] at h ⊢
    unfold copyTo
    rw [if_neg (by omega)]
    obtain ⟨o, h1, h2, h3⟩ := ih (out.set i a) (i + 1) (by rw [List.length_set]; omega)
    refine ⟨o, h1, by rw [h2, List.length_set], fun j => ?_⟩
    rw [h3]
    by_cases hj : i = j
    · subst hj
      rw [if_neg (by omega), if_pos (by omega), List.getElem?_set_self (by omega)]
      simp
    · rw [List.getElem?_set_ne hj]
      by_cases hj2 : i + 1 ≤ j ∧ j < i + 1 + v.length
      · rw [if_pos hj2, if_pos (by omega), show j - i = (j - (i + 1)) + 1 by omega,
          List.getElem?_cons_succ]
      · rw [if_neg hj2, if_neg (by omega)]

theorem copyPair_spec {out : EVec q 2} (hl : out.length = 1300) {p : Padded q} {k : ℕ} (hk : k < 10)
    (hc : p.comp.length = 128) (hp : p.pad.length = 2) :
    ∃ out', copyPair out p (260 * k) (260 * k + 256) = .ok out' ∧ out'.length = 1300 ∧
      ∀ j, out'[j]? = if 130 * k ≤ j ∧ j < 130 * k + 130 then (p.comp ++ p.pad)[j - 130 * k]?
        else out[j]? := by
  unfold copyPair
  rw [show 260 * k / 2 = 130 * k by omega, show (260 * k + 256) / 2 = 130 * k + 128 by omega]
  obtain ⟨o, h1, h2, h3⟩ := copyTo_spec p.comp out (130 * k) (by omega)
  obtain ⟨o', g1, g2, g3⟩ := copyTo_spec p.pad o (130 * k + 128) (by omega)
  refine ⟨o', by rw [h1, Res.ok_bind, g1], by omega, fun j => ?_⟩
  rw [g3, h3, hc, hp]
  by_cases ha : 130 * k ≤ j ∧ j < 130 * k + 128
  · rw [if_neg (by omega), if_pos ha, if_pos (by omega), List.getElem?_append_left (by omega)]
  · by_cases hb : 130 * k + 128 ≤ j ∧ j < 130 * k + 128 + 2
    · rw [if_pos hb, if_pos (by omega), List.getElem?_append_right (by omega), hc,
        show j - (130 * k + 128) = j - 130 * k - 128 by omega]
    · rw [if_neg hb, if_neg ha, if_neg (by omega)]

/-- What the part of `compressed` that belongs to block `k` holds. -/
def CompHolds (out : EVec q 2) (x : ℕ → ZMod q) (k : ℕ) : Prop :=
  ∀ j < 130, out[130 * k + j]? = some (eltAt x (260 * k) j)

theorem compHolds_of {out' : EVec q 2} {out : EVec q 2} {p : Padded q} {k : ℕ}
    (hc : p.comp.length = 128) (hp : p.pad.length = 2) {x : ℕ → ZMod q}
    (h : ∀ j, out'[j]? = if 130 * k ≤ j ∧ j < 130 * k + 130 then (p.comp ++ p.pad)[j - 130 * k]?
        else out[j]?)
    (h1 : Reads x (260 * k) (coeffs p.comp)) (h2 : Reads x (260 * k + 256) (coeffs p.pad)) :
    CompHolds out' x k := by
  intro j hj
  have hca : coeffs (p.comp ++ p.pad) = coeffs p.comp ++ coeffs p.pad := by
    simp only [coeffs, List.flatMap_append]
  have hr : Reads x (260 * k) (coeffs (p.comp ++ p.pad)) := by
    rw [hca]
    exact reads_append h1 (by rw [coeffs_length, hc]; exact h2)
  have hjl : j < (p.comp ++ p.pad).length := by simp; omega
  rw [h, if_pos (by omega), Nat.add_sub_cancel_left, hr.elt j hjl, List.getElem?_eq_getElem hjl,
    List.getD_eq_getElem?_getD, List.getElem?_eq_getElem hjl]
  rfl

theorem CompHolds.other {out' out : EVec q 2} {v : EVec q 2} {k l : ℕ} (hkl : k ≠ l) {x : ℕ → ZMod q}
    (h : ∀ j, out'[j]? = if 130 * k ≤ j ∧ j < 130 * k + 130 then v[j - 130 * k]? else out[j]?)
    (hl : CompHolds out x l) : CompHolds out' x l := by
  intro j hj
  rw [h, if_neg (by omega)]
  exact hl j hj

end
end Verif
