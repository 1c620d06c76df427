import Verif.Lemmas.RegevSteps2

namespace Verif
open Spec Regev
open scoped BigOperators

section
variable {q : ℕ} [Fact q.Prime]

theorem scaleE_length (s : ZMod q) (v : EVec q 2) : (scaleE s v).length = v.length := List.length_map _
theorem mulE_length (v : EVec q 2) (e : Elt (ZMod q) 2) : (mulE v e).length = v.length := List.length_map _
theorem negE_length (v : EVec q 2) : (negE v).length = v.length := List.length_map _

theorem powers_length (x : Elt (ZMod q) 2) (n : ℕ) : ((List.range n).map fun i => x ^ i).length = n := by simp

/-- `dotBlk` of the powers of `ξ`. -/
theorem dotBlk_powers (ξ : Elt (ZMod q) 2) (n : ℕ) (x : ℕ → ZMod q) (idx : ℕ) :
    dotBlk ((List.range n).map fun i => ξ ^ i) x idx = ∑ j ∈ Finset.range n, ξ ^ j * eltAt x idx j := by
  rw [dotBlk_eq, powers_length]
  exact Finset.sum_congr rfl fun j hj => by rw [power_getD _ _ _ (Finset.mem_range.1 hj)]

theorem dotBlk_scaled (s : ZMod q) (ξ : Elt (ZMod q) 2) (n : ℕ) (x : ℕ → ZMod q) (idx : ℕ) :
    dotBlk (scaleE s ((List.range n).map fun i => ξ ^ i)) x idx =
      ∑ j ∈ Finset.range n, ξ ^ j * (s • eltAt x idx j) := by
  rw [dotBlk_eq, scaleE_length, powers_length]
  exact Finset.sum_congr rfl fun j hj => by
    rw [scaleE_getD, power_getD _ _ _ (Finset.mem_range.1 hj), smul_mul_assoc, mul_smul_comm]

theorem ip_range {a b : EVec q 2} {n : ℕ} (ha : a.length = n) (hb : b.length = n) :
    ip a b = ∑ i ∈ Finset.range n, a.getD i 0 * b.getD i 0 := ip_eq a b n ha hb

theorem getD_of_lt {α : Type} {d : α} (v : List α) {i : ℕ} (h : i < v.length) : v.getD i d = v[i] := by
  rw [List.getD_eq_getElem?_getD, List.getElem?_eq_getElem h]; rfl

theorem matVec_spec {A : EMat q 2} {n m : ℕ} (hA : HasShape A n m) {v : EVec q 2} (hv : v.length = m)
    {cols : ℕ} (hc : cols = m) :
    ∃ w, matVec A cols v = .ok w ∧ w.length = n ∧
      ∀ k < n, w.getD k 0 = ∑ i ∈ Finset.range m, entry A k i * v.getD i 0 := by
  unfold matVec
  rw [if_neg (by omega)]
  refine ⟨_, rfl, by simp [hA.1], fun k hk => ?_⟩
  have hk' : k < A.length := by rw [hA.1]; exact hk
  rw [List.getD_eq_getElem?_getD, List.getElem?_map, List.getElem?_eq_getElem hk', Option.map_some,
    Option.getD_some, ip_range (hA.2 _ (List.getElem_mem hk')) hv]
  unfold entry
  rw [getD_of_lt A hk']

theorem vecMat_spec {A : EMat q 2} {n m : ℕ} (hA : HasShape A n m) {v : EVec q 2} (hv : v.length = n) :
    ∃ w, vecMat v A m = .ok w ∧ w.length = m ∧
      ∀ k < m, w.getD k 0 = ∑ i ∈ Finset.range n, v.getD i 0 * entry A i k := by
  unfold vecMat
  rw [if_neg (by rw [hA.1]; omega)]
  refine ⟨_, rfl, by simp, fun k hk => ?_⟩
  rw [List.getD_eq_getElem?_getD, List.getElem?_map, List.getElem?_range hk, Option.map_some,
    Option.getD_some, ip_range hv (by simp [hA.1])]
  refine Finset.sum_congr rfl fun i hi => ?_
  have hi' : i < A.length := by rw [hA.1]; exact Finset.mem_range.1 hi
  congr 1
  unfold entry
  rw [getD_of_lt A hi', getD_of_lt _ (by rw [List.length_map]; exact hi'), List.getElem_map]

theorem numCols_eq {A : EMat q 2} {n m : ℕ} (hA : HasShape A n m) (hn : 0 < n) : numCols A = m := by
  unfold numCols
  cases A with
  | nil => have := hA.1; simp at this; omega
  | cons r A => exact hA.2 r (by simp)

theorem sum_range_congr {R : Type} [AddCommMonoid R] {n : ℕ} {f g : ℕ → R} (h : ∀ i < n, f i = g i) :
    ∑ i ∈ Finset.range n, f i = ∑ i ∈ Finset.range n, g i :=
  Finset.sum_congr rfl fun i hi => h i (Finset.mem_range.1 hi)

/-! ### Decryption -/

theorem decConstraints_spec (P : Params q) {ix : Indexes} {R : List TMat} {ρ : ℕ → ℕ → Elt (ZMod q) 2}
    {kay tee w : ℕ} (hR : Acts R tee 128 ρ) (ξ : Elt (ZMod q) 2) {ctMat : EMat q 2} {ctVec : EVec q 2}
    (hk : 0 < kay) (hM : HasShape ctMat kay tee) (hV : ctVec.length = tee)
    (b1 : ix.dCompLo + 256 ≤ w) (b2 : ix.dCompHi + 256 ≤ w) (b3 : ix.sk1 + kay * 2 ≤ w)
    (b4 : ix.pt1 + tee ≤ w)
    {cs : List (LinConstraint (ZMod q))} (hcs : 2 ≤ cs.length) :
    ∃ out, decConstraints P ix R ((List.range 128).map fun i => ξ ^ i) ctMat ctVec cs = .ok out ∧
      Says out 0 (fun k => k < w) (fun x => batch 128 ξ fun j =>
        digits x ix.dCompLo ix.dCompHi P.radix j - ∑ i ∈ Finset.range tee,
          decNoise P.delta kay ctMat ctVec ix.sk1 ix.pt1 x i * ρ i j) ∧ Beyond cs out := by
  obtain ⟨c1, e1, p1, f1⟩ := resetSlot_spec cs hcs
  obtain ⟨Rx, eR, lR, vR⟩ := hR.right _ (powers_length ξ 128)
  obtain ⟨c2, e2, p2, f2⟩ := setEqsTo_spec p1 (ip ctVec Rx)
  obtain ⟨c3, e3, p3, f3⟩ := expand_pair p2 ix.dCompLo ((List.range 128).map fun i => ξ ^ i)
  obtain ⟨c4, e4, p4, f4⟩ := expand_pair p3 ix.dCompHi
    (scaleE (P.radix : ZMod q) ((List.range 128).map fun i => ξ ^ i))
  obtain ⟨ctRx, eM, lM, vM⟩ := matVec_spec hM lR (numCols_eq hM hk)
  obtain ⟨c5, e5, p5, f5⟩ := expand_pair p4 ix.sk1 ctRx
  obtain ⟨c6, e6, p6, f6⟩ := make_pair p5 ix.pt1 (mulE Rx (g q 2 P.delta))
  refine ⟨c6, ?_, ⟨_, _, p6.mono (K' := fun k => k < w) ?_ rfl (fun x => rfl), ?_⟩,
    ((((f1.trans f2).trans f3).trans f4).trans f5).trans f6⟩
  · unfold decConstraints
    rw [e1, Res.ok_bind, eR, Res.ok_bind, e2, Res.ok_bind, e3, Res.ok_bind, e4, Res.ok_bind, eM,
      Res.ok_bind, e5, Res.ok_bind, e6]
  · intro k hk
    simp only [scaleE_length, mulE_length, powers_length, lM, lR, false_or] at hk
    omega
  · intro x
    have hRx : ∀ i < tee, Rx.getD i 0 = ∑ j ∈ Finset.range 128, ρ i j * ξ ^ j := fun i hi => by
      rw [vR i hi]
      exact sum_range_congr fun j hj => by rw [power_getD _ _ _ hj]
    unfold batch digits decNoise
    beta_reduce
    rw [batch_identity tee 128 kay (fun j => eltAt x ix.dCompLo j + (P.radix : ZMod q) • eltAt x ix.dCompHi j)
      (fun j => ξ ^ j) (fun i => ctVec.getD i 0) (fun i => x (ix.pt1 + i) • g q 2 P.delta)
      (fun k => eltAt x ix.sk1 k) (fun k i => entry ctMat k i) ρ]
    simp only [mul_add, Finset.sum_add_distrib]
    rw [dotBlk_powers, dotBlk_scaled, dotBlk_eq ctRx, dotVar_eq, lM, mulE_length, lR, ip_range hV lR]
    rw [sum_range_congr (n := tee) (f := fun i => ctVec.getD i 0 * Rx.getD i 0) fun i hi => by rw [hRx i hi],
      sum_range_congr (n := tee) (f := fun i => x (ix.pt1 + i) • (mulE Rx (g q 2 P.delta)).getD i 0)
        (g := fun i => (x (ix.pt1 + i) • g q 2 P.delta) * ∑ j ∈ Finset.range 128, ρ i j * ξ ^ j)
        fun i hi => by rw [mulE_getD, hRx i hi, smul_mul_assoc, mul_comm],
      sum_range_congr (n := kay) (f := fun i => ctRx.getD i 0 * eltAt x ix.sk1 i) fun k hk => by
        rw [vM k hk, sum_range_congr fun i hi => by rw [hRx i hi]]]
    ring

/-! ### Encryption -/

theorem encConstraints1_spec (P : Params q) {ix : Indexes} {R : List TMat} {ρ : ℕ → ℕ → Elt (ZMod q) 2}
    {kay w : ℕ} (hkay : P.gk.kay = kay) (hR : Acts R 128 kay ρ) (ξ : Elt (ZMod q) 2) {ct : EVec q 2}
    (hA : HasShape P.gk.A kay kay) (hV : ct.length = kay)
    (b1 : ix.eComp1Lo + 256 ≤ w) (b2 : ix.eComp1Hi + 256 ≤ w) (b3 : ix.r + kay * 2 ≤ w)
    {cs : List (LinConstraint (ZMod q))} {f0 : (ℕ → ZMod q) → Elt (ZMod q) 2} {e0 : Elt (ZMod q) 2}
    {K0 : ℕ → Prop} (hK0 : ∀ k, K0 k → k < w) (p1 : Pair cs K0 e0 f0) :
    ∃ out, encConstraints1 P ix R ((List.range 128).map fun i => ξ ^ i) ct cs = .ok out ∧
      Says out 0 (fun k => k < w) (fun x => f0 x + batch 128 ξ fun j =>
        digits x ix.eComp1Lo ix.eComp1Hi P.radix j - ∑ i ∈ Finset.range kay,
          ρ j i * encNoise1 kay P.gk.A ct ix.r x i) ∧ Beyond cs out := by
  obtain ⟨xR, eR, lR, vR⟩ := hR.left _ (powers_length ξ 128)
  obtain ⟨c2, e2, p2, f2⟩ := setEqsTo_spec p1 (ip xR ct)
  obtain ⟨xA, eM, lM, vM⟩ := vecMat_spec hA lR
  obtain ⟨c3, e3, p3, f3⟩ := expand_pair p2 ix.r xA
  obtain ⟨c4, e4, p4, f4⟩ := expand_pair p3 ix.eComp1Lo ((List.range 128).map fun i => ξ ^ i)
  obtain ⟨c5, e5, p5, f5⟩ := expand_pair p4 ix.eComp1Hi
    (scaleE (P.radix : ZMod q) ((List.range 128).map fun i => ξ ^ i))
  refine ⟨c5, ?_, ⟨_, _, p5.mono (K' := fun k => k < w) ?_ rfl (fun x => rfl), ?_⟩,
    ((f2.trans f3).trans f4).trans f5⟩
  · unfold encConstraints1
    rw [eR, Res.ok_bind, e2, Res.ok_bind, hkay, eM, Res.ok_bind, e3, Res.ok_bind, e4, Res.ok_bind, e5]
  · intro k hk
    simp only [scaleE_length, powers_length, lM] at hk
    rcases hk with ((hk | hk) | hk) | hk
    · exact hK0 k hk
    · omega
    · omega
    · omega
  · intro x
    have hRx : ∀ i < kay, xR.getD i 0 = ∑ j ∈ Finset.range 128, ρ j i * ξ ^ j := fun i hi => by
      rw [vR i hi]
      exact sum_range_congr fun j hj => by rw [power_getD _ _ _ hj, mul_comm]
    unfold batch digits
    beta_reduce
    have key := batch_identity kay 128 kay
      (fun j => eltAt x ix.eComp1Lo j + (P.radix : ZMod q) • eltAt x ix.eComp1Hi j)
      (fun j => ξ ^ j) (fun i => ct.getD i 0) (fun i => 0)
      (fun k => eltAt x ix.r k) (fun k i => entry P.gk.A i k) (fun i j => ρ j i)
    have hn : ∀ i j, (ct.getD i 0 - ∑ k ∈ Finset.range kay, eltAt x ix.r k * entry P.gk.A i k - 0) * ρ j i =
        ρ j i * encNoise1 kay P.gk.A ct ix.r x i := fun i j => by
      unfold encNoise1
      rw [sub_zero, mul_comm]
      simp only [mul_comm (eltAt x ix.r _)]
    simp only [hn] at key
    rw [key]
    simp only [mul_add, Finset.sum_add_distrib, zero_mul, Finset.sum_const_zero]
    rw [dotBlk_powers, dotBlk_scaled, dotBlk_eq xA, lM, ip_range lR hV]
    rw [sum_range_congr (n := kay) (f := fun i => xR.getD i 0 * ct.getD i 0)
        (g := fun i => ct.getD i 0 * ∑ j ∈ Finset.range 128, ρ j i * ξ ^ j) fun i hi => by
          rw [hRx i hi, mul_comm],
      sum_range_congr (n := kay) (f := fun k => xA.getD k 0 * eltAt x ix.r k)
        (g := fun k => (∑ i ∈ Finset.range kay, entry P.gk.A i k * ∑ j ∈ Finset.range 128, ρ j i * ξ ^ j) *
          eltAt x ix.r k) fun k hk => by
        rw [vM k hk, sum_range_congr fun i hi => by rw [hRx i hi, mul_comm]]]
    ring

theorem encConstraints2_spec (P : Params q) {ix : Indexes} {R : List TMat} {ρ : ℕ → ℕ → Elt (ZMod q) 2}
    {kay enn w : ℕ} (hkay : P.gk.kay = kay) (hR : Acts R 128 enn ρ) (ξ : Elt (ZMod q) 2) {ct : EVec q 2}
    (hA : HasShape P.gk.B enn kay) (hV : ct.length = enn)
    (b1 : ix.eComp2Lo + 256 ≤ w) (b2 : ix.eComp2Hi + 256 ≤ w) (b3 : ix.r + kay * 2 ≤ w)
    (b4 : ix.pt2 + enn ≤ w)
    {cs : List (LinConstraint (ZMod q))} {f0 : (ℕ → ZMod q) → Elt (ZMod q) 2} {e0 : Elt (ZMod q) 2}
    {K0 : ℕ → Prop} (hK0 : ∀ k, K0 k → k < w) (p1 : Pair cs K0 e0 f0) :
    ∃ out, encConstraints2 P ix R ((List.range 128).map fun i => ξ ^ i) ct cs = .ok out ∧
      Says out 0 (fun k => k < w) (fun x => f0 x + batch 128 ξ fun j =>
        digits x ix.eComp2Lo ix.eComp2Hi P.radix j - ∑ i ∈ Finset.range enn,
          ρ j i * encNoise2 P.delta kay P.gk.B ct ix.r ix.pt2 x i) ∧ Beyond cs out := by
  obtain ⟨xR, eR, lR, vR⟩ := hR.left _ (powers_length ξ 128)
  obtain ⟨c2, e2, p2, f2⟩ := setEqsTo_spec p1 (ip xR ct)
  obtain ⟨xA, eM, lM, vM⟩ := vecMat_spec hA lR
  obtain ⟨c3, e3, p3, f3⟩ := expand_pair p2 ix.r xA
  obtain ⟨c4, e4, p4, f4⟩ := expand_pair p3 ix.eComp2Lo ((List.range 128).map fun i => ξ ^ i)
  obtain ⟨c5, e5, p5, f5⟩ := expand_pair p4 ix.eComp2Hi
    (scaleE (P.radix : ZMod q) ((List.range 128).map fun i => ξ ^ i))
  obtain ⟨c6, e6, p6, f6⟩ := make_pair p5 ix.pt2 (mulE xR (g q 2 P.delta))
  refine ⟨c6, ?_, ⟨_, _, p6.mono (K' := fun k => k < w) ?_ rfl (fun x => rfl), ?_⟩,
    (((f2.trans f3).trans f4).trans f5).trans f6⟩
  · unfold encConstraints2
    rw [eR, Res.ok_bind, e2, Res.ok_bind, hkay, eM, Res.ok_bind, e3, Res.ok_bind, e4, Res.ok_bind, e5,
      Res.ok_bind, e6]
  · intro k hk
    simp only [scaleE_length, powers_length, mulE_length, lM, lR] at hk
    rcases hk with (((hk | hk) | hk) | hk) | hk
    · exact hK0 k hk
    · omega
    · omega
    · omega
    · omega
  · intro x
    have hRx : ∀ i < enn, xR.getD i 0 = ∑ j ∈ Finset.range 128, ρ j i * ξ ^ j := fun i hi => by
      rw [vR i hi]
      exact sum_range_congr fun j hj => by rw [power_getD _ _ _ hj, mul_comm]
    unfold batch digits
    beta_reduce
    have key := batch_identity enn 128 kay
      (fun j => eltAt x ix.eComp2Lo j + (P.radix : ZMod q) • eltAt x ix.eComp2Hi j)
      (fun j => ξ ^ j) (fun i => ct.getD i 0) (fun i => x (ix.pt2 + i) • g q 2 P.delta)
      (fun k => eltAt x ix.r k) (fun k i => entry P.gk.B i k) (fun i j => ρ j i)
    have hn : ∀ i j, (ct.getD i 0 - ∑ k ∈ Finset.range kay, eltAt x ix.r k * entry P.gk.B i k
        - x (ix.pt2 + i) • g q 2 P.delta) * ρ j i =
        ρ j i * encNoise2 P.delta kay P.gk.B ct ix.r ix.pt2 x i := fun i j => by
      unfold encNoise2
      rw [mul_comm]
      simp only [mul_comm (eltAt x ix.r _)]
    simp only [hn] at key
    rw [key]
    simp only [mul_add, Finset.sum_add_distrib]
    rw [dotBlk_powers, dotBlk_scaled, dotBlk_eq xA, dotVar_eq, lM, mulE_length, lR, ip_range lR hV]
    rw [sum_range_congr (n := enn) (f := fun i => xR.getD i 0 * ct.getD i 0)
        (g := fun i => ct.getD i 0 * ∑ j ∈ Finset.range 128, ρ j i * ξ ^ j) fun i hi => by
          rw [hRx i hi, mul_comm],
      sum_range_congr (n := enn) (f := fun i => x (ix.pt2 + i) • (mulE xR (g q 2 P.delta)).getD i 0)
        (g := fun i => (x (ix.pt2 + i) • g q 2 P.delta) * ∑ j ∈ Finset.range 128, ρ j i * ξ ^ j)
        fun i hi => by rw [mulE_getD, hRx i hi, smul_mul_assoc, mul_comm],
      sum_range_congr (n := kay) (f := fun k => xA.getD k 0 * eltAt x ix.r k)
        (g := fun k => (∑ i ∈ Finset.range enn, entry P.gk.B i k * ∑ j ∈ Finset.range 128, ρ j i * ξ ^ j) *
          eltAt x ix.r k) fun k hk => by
        rw [vM k hk, sum_range_congr fun i hi => by rw [hRx i hi, mul_comm]]]
    ring

theorem encConstraints3_spec {ix : Indexes} {R : List TMat} {ρ : ℕ → ℕ → Elt (ZMod q) 2}
    {kay w : ℕ} (hR : Acts R 128 kay ρ) (ξ : Elt (ZMod q) 2)
    (b1 : ix.rComp + 256 ≤ w) (b3 : ix.r + kay * 2 ≤ w)
    {cs : List (LinConstraint (ZMod q))} {f0 : (ℕ → ZMod q) → Elt (ZMod q) 2} {e0 : Elt (ZMod q) 2}
    {K0 : ℕ → Prop} (hK0 : ∀ k, K0 k → k < w) (p1 : Pair cs K0 e0 f0) :
    ∃ out, encConstraints3 ix R ((List.range 128).map fun i => ξ ^ i) cs = .ok out ∧
      Says out 0 (fun k => k < w) (fun x => f0 x + batch 128 ξ fun j =>
        eltAt x ix.rComp j - ∑ i ∈ Finset.range kay, ρ j i * eltAt x ix.r i) ∧ Beyond cs out := by
  obtain ⟨c2, e2, p2, f2⟩ := setEqsTo_spec p1 0
  obtain ⟨c3, e3, p3, f3⟩ := expand_pair p2 ix.rComp ((List.range 128).map fun i => ξ ^ i)
  obtain ⟨xR, eR, lR, vR⟩ := hR.left (negE ((List.range 128).map fun i => ξ ^ i))
    (by rw [negE_length, powers_length])
  obtain ⟨c4, e4, p4, f4⟩ := expand_pair p3 ix.r xR
  refine ⟨c4, ?_, ⟨_, _, p4.mono (K' := fun k => k < w) ?_ rfl (fun x => rfl), ?_⟩,
    (f2.trans f3).trans f4⟩
  · unfold encConstraints3
    rw [e2, Res.ok_bind, e3, Res.ok_bind, eR, Res.ok_bind, e4]
  · intro k hk
    simp only [powers_length, lR] at hk
    rcases hk with (hk | hk) | hk
    · exact hK0 k hk
    · omega
    · omega
  · intro x
    have hRx : ∀ i < kay, xR.getD i 0 = - ∑ j ∈ Finset.range 128, ρ j i * ξ ^ j := fun i hi => by
      rw [vR i hi, ← Finset.sum_neg_distrib]
      exact sum_range_congr fun j hj => by rw [negE_getD, power_getD _ _ _ hj]; ring
    unfold batch
    beta_reduce
    have key := batch_identity kay 128 0 (fun j => eltAt x ix.rComp j)
      (fun j => ξ ^ j) (fun i => eltAt x ix.r i) (fun i => 0)
      (fun k => 0) (fun k i => 0) (fun i j => ρ j i)
    simp only [Finset.range_zero, Finset.sum_empty, sub_zero, zero_mul, Finset.sum_const_zero,
      add_zero] at key
    simp only [mul_comm (ρ _ _) (eltAt _ _ _)]
    rw [key, dotBlk_powers, dotBlk_eq xR, lR]
    rw [sum_range_congr (n := kay) (f := fun k => xR.getD k 0 * eltAt x ix.r k)
        (g := fun k => - (eltAt x ix.r k * ∑ j ∈ Finset.range 128, ρ j k * ξ ^ j)) fun k hk => by
        rw [hRx k hk]; ring, Finset.sum_neg_distrib]
    ring

/-! ### Key generation -/

theorem keyConstraints1_spec (P : Params q) {ix : Indexes} {R : List TMat} {ρ : ℕ → ℕ → Elt (ZMod q) 2}
    {kay w : ℕ} (hkay : P.gk.kay = kay) (hR : Acts R kay 128 ρ) (ξ : Elt (ZMod q) 2) {pk : EVec q 2}
    (hA : HasShape P.gk.A kay kay) (hV : pk.length = kay)
    (b1 : ix.kCompLo + 256 ≤ w) (b2 : ix.kCompHi + 256 ≤ w) (b3 : ix.sk2 + kay * 2 ≤ w)
    {cs : List (LinConstraint (ZMod q))} {f0 : (ℕ → ZMod q) → Elt (ZMod q) 2} {e0 : Elt (ZMod q) 2}
    {K0 : ℕ → Prop} (hK0 : ∀ k, K0 k → k < w) (p1 : Pair cs K0 e0 f0) :
    ∃ out, keyConstraints1 P ix R ((List.range 128).map fun i => ξ ^ i) pk cs = .ok out ∧
      Says out 0 (fun k => k < w) (fun x => f0 x + batch 128 ξ fun j =>
        digits x ix.kCompLo ix.kCompHi P.radix j - ∑ i ∈ Finset.range kay,
          keyNoise kay P.gk.A pk ix.sk2 x i * ρ i j) ∧ Beyond cs out := by
  obtain ⟨Rx, eR, lR, vR⟩ := hR.right _ (powers_length ξ 128)
  obtain ⟨c2, e2, p2, f2⟩ := setEqsTo_spec p1 (ip Rx pk)
  obtain ⟨AR, eM, lM, vM⟩ := matVec_spec hA lR rfl
  obtain ⟨c3, e3, p3, f3⟩ := expand_pair p2 ix.sk2 AR
  obtain ⟨c4, e4, p4, f4⟩ := expand_pair p3 ix.kCompLo ((List.range 128).map fun i => ξ ^ i)
  obtain ⟨c5, e5, p5, f5⟩ := expand_pair p4 ix.kCompHi
    (scaleE (P.radix : ZMod q) ((List.range 128).map fun i => ξ ^ i))
  refine ⟨c5, ?_, ⟨_, _, p5.mono (K' := fun k => k < w) ?_ rfl (fun x => rfl), ?_⟩,
    ((f2.trans f3).trans f4).trans f5⟩
  · unfold keyConstraints1
    rw [eR, Res.ok_bind, e2, Res.ok_bind, hkay, eM, Res.ok_bind, e3, Res.ok_bind, e4, Res.ok_bind, e5]
  · intro k hk
    simp only [scaleE_length, powers_length, lM] at hk
    rcases hk with ((hk | hk) | hk) | hk
    · exact hK0 k hk
    · omega
    · omega
    · omega
  · intro x
    have hRx : ∀ i < kay, Rx.getD i 0 = ∑ j ∈ Finset.range 128, ρ i j * ξ ^ j := fun i hi => by
      rw [vR i hi]
      exact sum_range_congr fun j hj => by rw [power_getD _ _ _ hj]
    unfold batch digits
    beta_reduce
    have key := batch_identity kay 128 kay
      (fun j => eltAt x ix.kCompLo j + (P.radix : ZMod q) • eltAt x ix.kCompHi j)
      (fun j => ξ ^ j) (fun i => pk.getD i 0) (fun i => 0)
      (fun k => eltAt x ix.sk2 k) (fun k i => entry P.gk.A k i) ρ
    simp only [sub_zero] at key
    unfold keyNoise
    rw [key]
    simp only [mul_add, Finset.sum_add_distrib, zero_mul, Finset.sum_const_zero]
    rw [dotBlk_powers, dotBlk_scaled, dotBlk_eq AR, lM, ip_range lR hV]
    rw [sum_range_congr (n := kay) (f := fun i => Rx.getD i 0 * pk.getD i 0)
        (g := fun i => pk.getD i 0 * ∑ j ∈ Finset.range 128, ρ i j * ξ ^ j) fun i hi => by
          rw [hRx i hi, mul_comm],
      sum_range_congr (n := kay) (f := fun k => AR.getD k 0 * eltAt x ix.sk2 k)
        (g := fun k => (∑ i ∈ Finset.range kay, entry P.gk.A k i * ∑ j ∈ Finset.range 128, ρ i j * ξ ^ j) *
          eltAt x ix.sk2 k) fun k hk => by
        rw [vM k hk, sum_range_congr fun i hi => by rw [hRx i hi]]]
    ring

theorem keyConstraints2_spec {ix : Indexes} {R : List TMat} {ρ : ℕ → ℕ → Elt (ZMod q) 2}
    {kay w : ℕ} (hR : Acts R kay 128 ρ) (ξ : Elt (ZMod q) 2)
    (b1 : ix.sk2Comp + 256 ≤ w) (b3 : ix.sk2 + kay * 2 ≤ w)
    {cs : List (LinConstraint (ZMod q))} {f0 : (ℕ → ZMod q) → Elt (ZMod q) 2} {e0 : Elt (ZMod q) 2}
    {K0 : ℕ → Prop} (hK0 : ∀ k, K0 k → k < w) (p1 : Pair cs K0 e0 f0) :
    ∃ out, keyConstraints2 ix R ((List.range 128).map fun i => ξ ^ i) cs = .ok out ∧
      Says out 0 (fun k => k < w) (fun x => f0 x + batch 128 ξ fun j =>
        eltAt x ix.sk2Comp j - ∑ i ∈ Finset.range kay, eltAt x ix.sk2 i * ρ i j) ∧ Beyond cs out := by
  obtain ⟨c2, e2, p2, f2⟩ := setEqsTo_spec p1 0
  obtain ⟨c3, e3, p3, f3⟩ := expand_pair p2 ix.sk2Comp ((List.range 128).map fun i => ξ ^ i)
  obtain ⟨Rx, eR, lR, vR⟩ := hR.right _ (powers_length ξ 128)
  obtain ⟨c4, e4, p4, f4⟩ := expand_pair p3 ix.sk2 (negE Rx)
  refine ⟨c4, ?_, ⟨_, _, p4.mono (K' := fun k => k < w) ?_ rfl (fun x => rfl), ?_⟩,
    (f2.trans f3).trans f4⟩
  · unfold keyConstraints2
    rw [e2, Res.ok_bind, e3, Res.ok_bind, eR, Res.ok_bind, e4]
  · intro k hk
    simp only [powers_length, negE_length, lR] at hk
    rcases hk with (hk | hk) | hk
    · exact hK0 k hk
    · omega
    · omega
  · intro x
    have hRx : ∀ i < kay, Rx.getD i 0 = ∑ j ∈ Finset.range 128, ρ i j * ξ ^ j := fun i hi => by
      rw [vR i hi]
      exact sum_range_congr fun j hj => by rw [power_getD _ _ _ hj]
    unfold batch
    beta_reduce
    have key := batch_identity kay 128 0 (fun j => eltAt x ix.sk2Comp j)
      (fun j => ξ ^ j) (fun i => eltAt x ix.sk2 i) (fun i => 0)
      (fun k => 0) (fun k i => 0) ρ
    simp only [Finset.range_zero, Finset.sum_empty, sub_zero, zero_mul, Finset.sum_const_zero,
      add_zero] at key
    rw [key, dotBlk_powers, dotBlk_eq (negE Rx), negE_length, lR]
    rw [sum_range_congr (n := kay) (f := fun k => (negE Rx).getD k 0 * eltAt x ix.sk2 k)
        (g := fun k => - (eltAt x ix.sk2 k * ∑ j ∈ Finset.range 128, ρ k j * ξ ^ j)) fun k hk => by
        rw [negE_getD, hRx k hk]; ring, Finset.sum_neg_distrib]
    ring

/-! ### Smallness -/

theorem smallConstraints_spec {ix : Indexes} {R : List TMat} {ρ : ℕ → ℕ → Elt (ZMod q) 2}
    {n w : ℕ} (hR : Acts R n 64 ρ) (ξ : Elt (ZMod q) 2) {z : EVec q 2} (hz : z.length = 64)
    (b1 : n * 2 ≤ w) (b3 : ix.y + 128 ≤ w)
    {cs : List (LinConstraint (ZMod q))} (hcs : 2 ≤ cs.length) :
    ∃ out, smallConstraints ix R ((List.range 64).map fun i => ξ ^ i) z cs = .ok out ∧
      Says out 0 (fun k => k < w) (fun x => batch 64 ξ fun j =>
        eltAt x ix.y j + (∑ i ∈ Finset.range n, eltAt x 0 i * ρ i j) - z.getD j 0) ∧ Beyond cs out := by
  obtain ⟨c1, e1, p1, f1⟩ := resetSlot_spec cs hcs
  obtain ⟨c2, e2, p2, f2⟩ := setEqsTo_spec p1 (ip z ((List.range 64).map fun i => ξ ^ i))
  obtain ⟨Rx, eR, lR, vR⟩ := hR.right _ (powers_length ξ 64)
  obtain ⟨c3, e3, p3, f3⟩ := expand_pair p2 0 Rx
  obtain ⟨c4, e4, p4, f4⟩ := expand_pair p3 ix.y ((List.range 64).map fun i => ξ ^ i)
  refine ⟨c4, ?_, ⟨_, _, p4.mono (K' := fun k => k < w) ?_ rfl (fun x => rfl), ?_⟩,
    ((f1.trans f2).trans f3).trans f4⟩
  · unfold smallConstraints
    rw [e1, Res.ok_bind, e2, Res.ok_bind, eR, Res.ok_bind, e3, Res.ok_bind, e4]
  · intro k hk
    simp only [powers_length, lR, false_or] at hk
    omega
  · intro x
    have hRx : ∀ i < n, Rx.getD i 0 = ∑ j ∈ Finset.range 64, ρ i j * ξ ^ j := fun i hi => by
      rw [vR i hi]
      exact sum_range_congr fun j hj => by rw [power_getD _ _ _ hj]
    unfold batch
    beta_reduce
    have key := batch_identity n 64 0 (fun j => eltAt x ix.y j - z.getD j 0)
      (fun j => ξ ^ j) (fun i => - eltAt x 0 i) (fun i => 0)
      (fun k => 0) (fun k i => 0) ρ
    simp only [Finset.range_zero, Finset.sum_empty, sub_zero, zero_mul, Finset.sum_const_zero,
      add_zero, neg_mul, Finset.sum_neg_distrib, sub_neg_eq_add] at key
    rw [sum_range_congr (n := 64) (f := fun j => ξ ^ j * (eltAt x ix.y j +
      (∑ i ∈ Finset.range n, eltAt x 0 i * ρ i j) - z.getD j 0))
      (g := fun j => ξ ^ j * (eltAt x ix.y j - z.getD j 0 +
      (∑ i ∈ Finset.range n, eltAt x 0 i * ρ i j))) fun j _ => by ring]
    rw [key, dotBlk_powers, dotBlk_eq Rx, lR, ip_range hz (powers_length ξ 64)]
    rw [sum_range_congr (n := n) (f := fun k => Rx.getD k 0 * eltAt x 0 k)
        (g := fun k => eltAt x 0 k * ∑ j ∈ Finset.range 64, ρ k j * ξ ^ j) fun k hk => by
        rw [hRx k hk]; ring,
      sum_range_congr (n := 64) (f := fun j => z.getD j 0 * ((List.range 64).map fun i => ξ ^ i).getD j 0)
        (g := fun j => ξ ^ j * z.getD j 0) fun j hj => by rw [power_getD _ _ _ hj, mul_comm]]
    simp only [mul_sub, Finset.sum_sub_distrib]
    ring

end
end Verif
