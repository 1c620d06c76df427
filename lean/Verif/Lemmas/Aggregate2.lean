/-
The two verifier steps of the aggregation.
-/
import Verif.Lemmas.Aggregate
import Verif.Props.Constraints
import Verif.Props.RegevUtils

namespace Verif
open Verif.Spec

/-- The ten compressed vectors, in the order of the norm constraints. -/
def Blocks.comps {α : Type} (b : Blocks α) : List α :=
  [b.dCompHi, b.dCompLo, b.rComp, b.eComp1Hi, b.eComp1Lo, b.eComp2Hi, b.eComp2Lo, b.sk2Comp,
    b.kCompHi, b.kCompLo]

/-- Their paddings. -/
def Blocks.pads {α : Type} (b : Blocks α) : List α :=
  [b.dPadHi, b.dPadLo, b.rPad, b.ePad1Hi, b.ePad1Lo, b.ePad2Hi, b.ePad2Lo, b.sk2Pad,
    b.kPadHi, b.kPadLo]

/-- The blocks of linear-only variables. -/
def Blocks.lins {α : Type} (b : Blocks α) : List α := [b.pt1, b.sk1, b.pt2, b.r, b.sk2, b.y]

section
variable {F G : Type} [Field F] [DecidableEq F] [AddCommGroup G] [Module F G]

omit [DecidableEq F] in
theorem scaleComs_spec (com : Blocks G) (r : F) :
    ∃ com', scaleComs com (pows r 10) = .ok com' ∧ com'.lins = com.lins ∧
      com'.comps = List.zipWith (· • ·) (pows r 10) (List.zipWith (· + ·) com.comps com.pads) := by
  refine ⟨{ com with
    dCompHi := r ^ 0 • (com.dCompHi + com.dPadHi), dCompLo := r ^ 1 • (com.dCompLo + com.dPadLo),
    rComp := r ^ 2 • (com.rComp + com.rPad), eComp1Hi := r ^ 3 • (com.eComp1Hi + com.ePad1Hi),
    eComp1Lo := r ^ 4 • (com.eComp1Lo + com.ePad1Lo), eComp2Hi := r ^ 5 • (com.eComp2Hi + com.ePad2Hi),
    eComp2Lo := r ^ 6 • (com.eComp2Lo + com.ePad2Lo), sk2Comp := r ^ 7 • (com.sk2Comp + com.sk2Pad),
    kCompHi := r ^ 8 • (com.kCompHi + com.kPadHi), kCompLo := r ^ 9 • (com.kCompLo + com.kPadLo) },
    rfl, rfl, rfl⟩

omit [DecidableEq F] in
theorem scaleRnds_spec (rnd : Blocks F) (r : F) :
    ∃ rnd', scaleRnds rnd (pows r 10) = .ok rnd' ∧ rnd'.lins = rnd.lins ∧
      rnd'.comps = List.zipWith (fun a b => b * a) (pows r 10) (List.zipWith (· + ·) rnd.comps rnd.pads) := by
  refine ⟨{ rnd with
    dCompHi := (rnd.dCompHi + rnd.dPadHi) * r ^ 0, dCompLo := (rnd.dCompLo + rnd.dPadLo) * r ^ 1,
    rComp := (rnd.rComp + rnd.rPad) * r ^ 2, eComp1Hi := (rnd.eComp1Hi + rnd.ePad1Hi) * r ^ 3,
    eComp1Lo := (rnd.eComp1Lo + rnd.ePad1Lo) * r ^ 4, eComp2Hi := (rnd.eComp2Hi + rnd.ePad2Hi) * r ^ 5,
    eComp2Lo := (rnd.eComp2Lo + rnd.ePad2Lo) * r ^ 6, sk2Comp := (rnd.sk2Comp + rnd.sk2Pad) * r ^ 7,
    kCompHi := (rnd.kCompHi + rnd.kPadHi) * r ^ 8, kCompLo := (rnd.kCompLo + rnd.kPadLo) * r ^ 9 },
    rfl, rfl, rfl⟩

omit [DecidableEq F] in
theorem pows_length (r : F) (n : ℕ) : (pows r n).length = n := by simp [pows]

theorem powerVector_pows (r : F) (n : ℕ) (h : 1 ≤ n) : powerVector r n = .ok (pows r n) :=
  (Props.C41_powers r n).1 h

section norm
variable {cs : List (QuadConstraint F)} {B : ℕ}

omit [DecidableEq F] [Field F] in
theorem Spec.NormBlocks.sorted (h : NormBlocks cs B) : ∀ c ∈ cs, SortedSet c.indexes := by
  intro c hc
  obtain ⟨k, hk, rfl⟩ := List.getElem_of_mem hc
  rw [h k hk]; exact sortedSet_range' _ _

omit [DecidableEq F] [Field F] in
theorem Spec.NormBlocks.disjoint (h : NormBlocks cs B) :
    cs.Pairwise fun c d => ∀ i ∈ c.indexes, i ∉ d.indexes := by
  rw [List.pairwise_iff_getElem]
  intro a b ha hb hab i hi
  rw [h a ha] at hi
  rw [h b hb]
  rw [List.mem_range'_1] at hi ⊢
  have : B * (a + 1) ≤ B * b := Nat.mul_le_mul_left _ hab
  rw [Nat.mul_add] at this
  omega

omit [DecidableEq F] [Field F] in
theorem Spec.NormBlocks.mem (h : NormBlocks cs B) (hB : 0 < B) (i : ℕ) :
    (∃ c ∈ cs, i ∈ c.indexes) ↔ i < B * cs.length := by
  constructor
  · rintro ⟨c, hc, hi⟩
    obtain ⟨k, hk, rfl⟩ := List.getElem_of_mem hc
    rw [h k hk, List.mem_range'_1] at hi
    have : B * (k + 1) ≤ B * cs.length := Nat.mul_le_mul_left _ hk
    rw [Nat.mul_add] at this
    omega
  · intro hi
    have hk : i / B < cs.length := Nat.div_lt_of_lt_mul hi
    refine ⟨cs[i / B], List.getElem_mem hk, ?_⟩
    rw [h _ hk, List.mem_range'_1]
    have h1 := Nat.mul_div_le i B
    have h2 := Nat.lt_mul_div_succ i hB
    rw [Nat.mul_add] at h2
    omega

omit [DecidableEq F] in
theorem Spec.NormBlocks.factor (h : NormBlocks cs B) (hB : 0 < B) (r : F) :
    ∀ p ∈ cs.zip (pows r cs.length), ∀ i ∈ p.1.indexes, r ^ (i / B) = p.2 := by
  intro p hp i hi
  obtain ⟨k, hk, rfl⟩ := List.getElem_of_mem hp
  have hk' : k < cs.length := by simp at hk; exact hk.1
  simp only [List.getElem_zip] at hi ⊢
  rw [h k hk', List.mem_range'_1] at hi
  have : i / B = k := by
    have h2 : i < B * (k + 1) := by rw [Nat.mul_add]; omega
    exact Nat.div_eq_of_lt_le (by rw [Nat.mul_comm]; exact hi.1) (by rw [Nat.mul_comm]; exact h2)
  rw [this]
  simp [pows]

end norm

/-- Everything about the first verifier step: with linear constraints over variables below `w` and
norm constraints on consecutive blocks of `B` variables, it splits the aggregated linear constraint
into the part over the quadratic variables (with the coefficients divided by the factor of the
block) and the part over the others. -/
theorem aggregateVerifier1_spec (E : Env F G) (tie : List (CompIter F) → ℕ) (v : ReadyToVerify F G)
    (vd : VerifierData F G E.St) (r1 r2 : F) (st1 st2 : E.St) (B : ℕ) (hB : 0 < B)
    (h1 : E.newChallenge vd.mer (str "aggregateLinear") = (r1, st1))
    (h2 : E.newChallenge st1 (str "aggregateNorms") = (r2, st2)) (hr2 : r2 ≠ 0)
    (hne : vd.linConstr ≠ []) (hs : ∀ c ∈ vd.linConstr, Sorted c.terms)
    (hk : ∀ c ∈ vd.linConstr, ∀ k ∈ keys c.terms, k < vd.ix.w)
    (hlast : aggCoef vd.linConstr r1 (vd.ix.w - 1) ≠ 0)
    (hn : vd.normConstr.length = 10) (hI : NormBlocks vd.normConstr B) (hw : B * 10 < vd.ix.w)
    (hw2 : vd.ix.w < 2 ^ 31) :
    ∃ v1 com', aggregateVerifier1 E tie v vd = .ok (v1, { vd with com := com', mer := st2 }) ∧
      com'.lins = vd.com.lins ∧
      v1.rVec = pows r2 10 ∧
      v1.quadCnstr = ⟨List.range (B * 10),
        ((vd.normConstr.zip (pows r2 10)).map fun p => p.2 ^ 2 * p.1.equalsTo).sum⟩ ∧
      v1.linCnstr.equalsTo = aggRhs vd.linConstr r1 ∧
      v1.as = tab (List.range (B * 10)) (fun i => aggCoef vd.linConstr r1 i * (r2 ^ (i / B))⁻¹) ∧
      Sorted v1.bs ∧ (∀ i ∈ keys v1.bs, B * 10 ≤ i ∧ i < vd.ix.w) ∧
      (∀ i, B * 10 ≤ i → coef v1.bs i = aggCoef vd.linConstr r1 i) ∧
      v1.linCom = vd.com.lins.sum ∧
      v1.quadCom = (List.zipWith (· • ·) (pows r2 10)
        (List.zipWith (· + ·) vd.com.comps vd.com.pads)).sum := by
  have hlen : 1 ≤ vd.linConstr.length := List.length_pos_iff.2 hne
  obtain ⟨c, c1, c2, c3, c4, c5, c6⟩ := merge_spec tie vd.linConstr (pows r1 vd.linConstr.length)
    (pows_length _ _).symm hs
  obtain ⟨qc, q1, q2, q3, q4⟩ := (Props.C18_merge vd.normConstr (pows r2 10)).2
    (by rw [pows_length, hn])
  have hIQ : qc.indexes = List.range (B * 10) := by
    apply sortedSet_ext q2 (sortedSet_range _)
    intro i
    rw [q3, hI.mem hB, hn, List.mem_range]
  obtain ⟨m, m1, m2, m3, m4, m5⟩ := divLoop_spec (pows r2 10) vd.normConstr (by rw [pows_length, hn])
    (by
      intro r hr
      obtain ⟨k, -, rfl⟩ := List.mem_map.1 hr
      exact pow_ne_zero _ hr2)
    hI.sorted hI.disjoint
    (by
      intro c hc i hi
      have := (hI.mem hB i).1 ⟨c, hc, hi⟩
      rw [hn] at this; omega)
    (fun i => r2 ^ (i / B))
    (by have := hI.factor hB r2; rwa [hn] at this) c.terms c2
  have hmem : ∀ i, (∃ c ∈ vd.normConstr, i ∈ c.indexes) ↔ i < B * 10 := by
    intro i; rw [hI.mem hB, hn]
  have hmk : ∀ i ∈ keys m, i < vd.ix.w := by
    intro i hi
    rcases (m3 i).1 hi with h | h
    · have := (hmem i).1 h; omega
    · obtain ⟨d, hd, hi⟩ := c6 i h
      exact hk d hd i hi
  obtain ⟨s1, s2⟩ := Props.C21_split m qc.indexes m2 q2
  -- the split index
  have hidx : (splitPtxtVec m qc.indexes).2.2 = vd.ix.w := by
    obtain ⟨i1, i2, i3⟩ := Props.C21_split_index m qc.indexes m2 q2
      (fun p hp => by
        have := hmk p.1 (List.mem_map.2 ⟨p, hp, rfl⟩); omega)
      (fun i hi => by rw [hIQ, List.mem_range] at hi; omega)
    have hmem1 : vd.ix.w - 1 ∈ keys m := by
      rw [m3]
      right
      by_contra hc
      apply hlast
      have := c3 (vd.ix.w - 1)
      rw [coef_eq_zero _ _ hc] at this
      unfold aggCoef
      exact this.symm
    obtain ⟨p, hp, hpk⟩ := List.mem_map.1 hmem1
    have hlt := i1 p hp
    rw [hpk] at hlt
    rcases i3 with ⟨rfl, -⟩ | ⟨i, hi, he⟩
    · simp at hp
    · have : i < vd.ix.w := by
        rcases hi with hi | hi
        · exact hmk i hi
        · rw [hIQ, List.mem_range] at hi; omega
      omega
  obtain ⟨com', k1, k2, k3⟩ := scaleComs_spec vd.com r2
  refine ⟨{ v with linCnstr := { c with terms := m }, quadCnstr := qc, rVec := pows r2 10,
                   as := (splitPtxtVec m qc.indexes).1, bs := (splitPtxtVec m qc.indexes).2.1,
                   linCom := com'.pt1 + com'.sk1 + com'.pt2 + com'.r + com'.sk2 + com'.y,
                   quadCom := com'.dCompHi + com'.dCompLo + com'.rComp + com'.eComp1Hi + com'.eComp1Lo
                    + com'.eComp2Hi + com'.eComp2Lo + com'.sk2Comp + com'.kCompHi + com'.kCompLo },
    com', ?_, k2, rfl, ?_, c4, ?_, ?_, ?_, ?_, ?_, ?_⟩
  · unfold aggregateVerifier1
    simp only [h1, h2]
    rw [powerVector_pows _ _ hlen]
    simp only [Res.ok_bind]
    rw [c1]
    simp only [Res.ok_bind]
    rw [hn, powerVector_pows _ _ (by omega)]
    simp only [Res.ok_bind]
    rw [q1]
    simp only [Res.ok_bind]
    rw [m1]
    simp only [Res.ok_bind]
    rw [if_neg (by rw [hidx]; simp), k1]
    rfl
  · simp only
    rw [← hIQ, ← q4]
  · simp only
    rw [s1]
    have hs' : Sorted (m.filter fun p => p.1 ∈ qc.indexes) := sorted_filter m2 _
    rw [map_eq_tab hs']
    have hkeys : keys (m.filter fun p => p.1 ∈ qc.indexes) = List.range (B * 10) := by
      apply sortedSet_ext (keys_sorted hs') (sortedSet_range _)
      intro i
      rw [List.mem_range, ← hmem, mem_keys]
      constructor
      · rintro ⟨a, ha⟩
        have := (List.mem_filter.1 ha).2
        simp only [decide_eq_true_eq] at this
        exact (q3 i).1 this
      · intro h
        obtain ⟨a, ha⟩ := mem_keys.1 ((m3 i).2 (Or.inl h))
        refine ⟨a, List.mem_filter.2 ⟨ha, ?_⟩⟩
        simp only [decide_eq_true_eq]
        exact (q3 i).2 h
    rw [hkeys]
    apply tab_congr
    intro i hi
    have hi' := (hmem i).2 (List.mem_range.1 hi)
    obtain ⟨a, ha⟩ := mem_keys.1 ((m3 i).2 (Or.inl hi'))
    have e1 : coef (m.filter fun p => p.1 ∈ qc.indexes) i = a := by
      apply coef_of_mem _ hs'
      refine List.mem_filter.2 ⟨ha, ?_⟩
      simp only [decide_eq_true_eq]
      exact (q3 i).2 hi'
    have e2 : coef m i = a := coef_of_mem _ m2 i a ha
    rw [e1, ← e2, m4 i hi', c3]
    rfl
  · simp only
    rw [s2]; exact sorted_filter m2 _
  · simp only
    rw [s2]
    intro i hi
    obtain ⟨a, ha⟩ := mem_keys.1 hi
    obtain ⟨ha1, ha2⟩ := List.mem_filter.1 ha
    simp only [decide_eq_true_eq] at ha2
    rw [hIQ, List.mem_range] at ha2
    exact ⟨by omega, hmk i (mem_keys.2 ⟨a, ha1⟩)⟩
  · simp only
    rw [s2]
    intro i hi
    have hi' : i ∉ qc.indexes := by rw [hIQ, List.mem_range]; omega
    have hs' : Sorted (m.filter fun p => p.1 ∉ qc.indexes) := sorted_filter m2 _
    have e1 : coef (m.filter fun p => p.1 ∉ qc.indexes) i = coef m i := by
      by_cases hm : i ∈ keys m
      · obtain ⟨a, ha⟩ := mem_keys.1 hm
        rw [coef_of_mem _ m2 i a ha, coef_of_mem _ hs' i a]
        refine List.mem_filter.2 ⟨ha, ?_⟩
        simpa using hi'
      · rw [coef_eq_zero _ _ hm, coef_eq_zero]
        intro h
        obtain ⟨a, ha⟩ := mem_keys.1 h
        exact hm (mem_keys.2 ⟨a, (List.mem_filter.1 ha).1⟩)
    rw [e1, m5 i (by rw [hmem]; omega), c3]
    rfl
  · rw [← k2]
    simp only [Blocks.lins, List.sum_cons, List.sum_nil]
    abel
  · rw [← k3]
    simp only [Blocks.comps, List.sum_cons, List.sum_nil]
    abel

end
end Verif
