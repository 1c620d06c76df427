/-
Consequences of the specifications of the aggregation: the equation behind the final quadratic
statement, sums over blocks, and openings of the aggregated commitments.
-/
import Verif.Lemmas.Aggregate3
import Verif.Props.Constraints
import Verif.Spec.Opened
import Mathlib.Tactic.Module
import Mathlib.Tactic.Abel
import Mathlib.Tactic.LinearCombination

namespace Verif
open Verif.Spec

section
variable {F : Type} [Field F]

theorem sum_map_sub' (I : List ℕ) (f g : ℕ → F) :
    (I.map fun i => f i - g i).sum = (I.map f).sum - (I.map g).sum := by
  induction I with
  | nil => simp
  | cons i I ih => simp only [List.map_cons, List.sum_cons, ih]; ring

theorem sum_map_add' {M : Type} [AddCommGroup M] (I : List ℕ) (f g : ℕ → M) :
    (I.map fun i => f i + g i).sum = (I.map f).sum + (I.map g).sum := by
  induction I with
  | nil => simp
  | cons i I ih => simp only [List.map_cons, List.sum_cons, ih]; abel

theorem sum_map_mul' (I : List ℕ) (c : F) (f : ℕ → F) :
    (I.map fun i => c * f i).sum = c * (I.map f).sum := by
  induction I with
  | nil => simp
  | cons i I ih => simp only [List.map_cons, List.sum_cons, ih]; ring

theorem sum_map_smul' {G : Type} [AddCommGroup G] [Module F G] (I : List ℕ) (c : F) (f : ℕ → G) :
    (I.map fun i => c • f i).sum = c • (I.map f).sum := by
  induction I with
  | nil => simp
  | cons i I ih => simp only [List.map_cons, List.sum_cons, ih, smul_add]

theorem sum_subset_zero {M : Type} [AddCommGroup M] {I J : List ℕ} (hI : I.Nodup) (hJ : J.Nodup)
    {f : ℕ → M} (hsub : ∀ i ∈ I, i ∈ J) (h0 : ∀ i ∈ J, i ∉ I → f i = 0) :
    (I.map f).sum = (J.map f).sum := by
  rw [← List.sum_toFinset f hI, ← List.sum_toFinset f hJ]
  apply Finset.sum_subset
  · intro i hi
    rw [List.mem_toFinset] at hi ⊢
    exact hsub i hi
  · intro i hi hn
    rw [List.mem_toFinset] at hi hn
    exact h0 i hi hn

/-- The identity behind `aggregateVerifier2`: the shifted inner product in terms of the committed
values. -/
theorem shifted_product (I : List ℕ) (X Y a p : ℕ → F) (rho : F) :
    (I.map fun i => (X i - (a i * -rho - p i)) * (Y i - p i)).sum
      = (I.map fun i => X i * Y i).sum + (I.map fun i => p i * (Y i - X i)).sum
        + rho * (I.map fun i => a i * Y i).sum - rho * (I.map fun i => a i * p i).sum
        - (I.map fun i => p i * p i).sum := by
  induction I with
  | nil => simp
  | cons i I ih => simp only [List.map_cons, List.sum_cons, ih]; ring

/-- A sum over `range (B*n)` by blocks of `B`. -/
theorem sum_range_blocks {M : Type} [AddCommGroup M] (B n : ℕ) (f : ℕ → M) :
    ((List.range (B * n)).map f).sum
      = ((List.range n).map fun k => ((List.range' (B * k) B).map f).sum).sum := by
  induction n with
  | zero => simp
  | succ n ih =>
    rw [List.range_succ (n := n), List.map_append, List.sum_append, ← ih, Nat.mul_succ]
    have : List.range (B * n + B) = List.range (B * n) ++ List.range' (B * n) B := by
      rw [List.range_eq_range', List.range_eq_range', ← List.range'_append_1, Nat.zero_add]
    rw [this, List.map_append, List.sum_append]
    simp

end
section
variable {F : Type} [Field F] [DecidableEq F]

/-- The aggregated linear constraint misses an assignment by the combination of the amounts by
which the constraints miss it. -/
theorem aggDefect (cs : List (LinConstraint F)) (r : F) (hs : ∀ c ∈ cs, Sorted c.terms) (w : ℕ)
    (hk : ∀ c ∈ cs, ∀ k ∈ keys c.terms, k < w) (x : ℕ → F) :
    ((List.range w).map fun i => aggCoef cs r i * x i).sum - aggRhs cs r
      = (((cs.zip (pows r cs.length)).filter fun p => p.1.terms.length ≠ 0).map
        fun p => p.2 * linDefect p.1 x).sum := by
  have hlen : cs.length = (pows r cs.length).length := by rw [pows_length]
  obtain ⟨c, h1, h2⟩ := Props.merge_defect (fun _ => 0) cs (pows r cs.length) hlen hs x
  obtain ⟨c', h3, h4, h5, h6, h7, h8⟩ := merge_spec (fun _ => 0) cs (pows r cs.length) hlen hs
  rw [h1] at h3
  have hcc := Res.ok.inj h3
  rw [← h2]
  unfold linDefect
  rw [sum_eq_coef c.terms x (List.range w) List.nodup_range]
  · rw [hcc, h6]
    congr 2
    apply List.map_congr_left
    intro i hi
    rw [h5]; rfl
  · intro i hi
    rw [hcc] at hi
    obtain ⟨d, hd, hi'⟩ := h8 i hi
    exact List.mem_range.2 (hk d hd i hi')

/-- The aggregated linear constraint holds if all constraints do. -/
theorem aggLin_sat (cs : List (LinConstraint F)) (r : F) (hs : ∀ c ∈ cs, Sorted c.terms) (w : ℕ)
    (hk : ∀ c ∈ cs, ∀ k ∈ keys c.terms, k < w) (x : ℕ → F) (hx : ∀ c ∈ cs, LinSat c x) :
    ((List.range w).map fun i => aggCoef cs r i * x i).sum = aggRhs cs r := by
  rw [← sub_eq_zero, aggDefect cs r hs w hk x]
  apply List.sum_eq_zero
  intro y hy
  obtain ⟨p, hp, rfl⟩ := List.mem_map.1 hy
  rw [(Props.linSat_iff _ _).1 (hx p.1 (List.of_mem_zip (List.mem_filter.1 hp).1).1), mul_zero]

omit [DecidableEq F] in
/-- Splitting off the linear-only part. -/
theorem aggLin_split (cs : List (LinConstraint F)) (r : F) (N w : ℕ) (h : N ≤ w) (x : ℕ → F) :
    ((List.range w).map fun i => aggCoef cs r i * x i).sum
      = ((List.range N).map fun i => aggCoef cs r i * x i).sum + wValue cs r N w x := by
  have : List.range w = List.range N ++ List.range' N (w - N) := by
    rw [List.range_eq_range', List.range_eq_range',
      show List.range' N (w - N) = List.range' (0 + N) (w - N) by rw [Nat.zero_add],
      List.range'_append_1]
    congr 1; omega
  rw [this, List.map_append, List.sum_append]
  rfl

omit [DecidableEq F] in
/-- The scaled inner product, block by block. -/
theorem scaled_product (cs : List (QuadConstraint F)) (B : ℕ) (hB : 0 < B) (hI : NormBlocks cs B)
    (r : F) (x y : ℕ → F) :
    ((List.range (B * cs.length)).map fun i => x i * r ^ (i / B) * (y i * r ^ (i / B))).sum
      = ((cs.zip (pows r cs.length)).map fun p =>
          p.2 ^ 2 * (p.1.indexes.map fun i => x i * y i).sum).sum := by
  rw [sum_range_blocks]
  have hz : cs.zip (pows r cs.length) = (List.range cs.length).map fun k => (cs.getD k ⟨[], 0⟩, r ^ k) := by
    apply List.ext_getElem
    · simp [pows_length]
    · intro k h1 h2
      have h3 : k < cs.length := by simpa using h2
      simp [pows, List.getD_eq_getElem?_getD, List.getElem?_eq_getElem h3]
  rw [hz, List.map_map]
  congr 1
  apply List.map_congr_left
  intro k hk
  have hk' := List.mem_range.1 hk
  simp only [Function.comp]
  rw [List.getD_eq_getElem?_getD, List.getElem?_eq_getElem hk', Option.getD_some, hI k hk',
    ← sum_map_mul']
  congr 1
  apply List.map_congr_left
  intro i hi
  rw [List.mem_range'_1] at hi
  have : i / B = k := by
    rw [Nat.div_eq_iff hB]
    constructor
    · nlinarith
    · have := Nat.mul_comm B k
      omega
  rw [this]; ring

end
section
variable {F G : Type} [Field F] [AddCommGroup G] [Module F G]

theorem comGH_append (base : G) (Gs Hs : List G) (x y : ℕ → F) (s l1 l2 : ℕ) (r1 r2 : F) :
    comGH base Gs Hs x y s l1 r1 + comGH base Gs Hs x y (s + l1) l2 r2
      = comGH base Gs Hs x y s (l1 + l2) (r1 + r2) := by
  unfold comGH
  rw [← List.range'_append_1, List.map_append, List.sum_append]
  module

theorem comG_append (base : G) (Gs : List G) (x : ℕ → F) (s l1 l2 : ℕ) (r1 r2 : F) :
    comG base Gs x s l1 r1 + comG base Gs x (s + l1) l2 r2 = comG base Gs x s (l1 + l2) (r1 + r2) := by
  unfold comG
  rw [← List.range'_append_1, List.map_append, List.sum_append]
  module

/-- Scaled sums of consecutive double commitments. -/
theorem comGH_blocks (base : G) (Gs Hs : List G) (x y : ℕ → F) (B n : ℕ) (hB : 0 < B) (r : F)
    (rs : ℕ → F) :
    ((List.range n).map fun k => r ^ k • comGH base Gs Hs x y (B * k) B (rs k)).sum
      = ((List.range n).map fun k => r ^ k * rs k).sum • base
        + ((List.range (B * n)).map fun i => (x i * r ^ (i / B)) • Gs.getD i 0
            + (y i * r ^ (i / B)) • Hs.getD i 0).sum := by
  rw [sum_range_blocks]
  have : ∀ I : List ℕ, (I.map fun k => r ^ k • comGH base Gs Hs x y (B * k) B (rs k)).sum
      = (I.map fun k => r ^ k * rs k).sum • base
        + (I.map fun k => ((List.range' (B * k) B).map fun i => (x i * r ^ (i / B)) • Gs.getD i 0
            + (y i * r ^ (i / B)) • Hs.getD i 0).sum).sum := by
    intro I
    induction I with
    | nil => simp
    | cons k I ih =>
      simp only [List.map_cons, List.sum_cons, ih]
      have e : ((List.range' (B * k) B).map fun i => (x i * r ^ (i / B)) • Gs.getD i 0
            + (y i * r ^ (i / B)) • Hs.getD i 0).sum
          = r ^ k • ((List.range' (B * k) B).map fun i => x i • Gs.getD i 0 + y i • Hs.getD i 0).sum := by
        rw [← sum_map_smul']
        congr 1
        apply List.map_congr_left
        intro i hi
        rw [List.mem_range'_1] at hi
        have : i / B = k := by
          rw [Nat.div_eq_iff hB]
          constructor
          · nlinarith
          · have := Nat.mul_comm B k
            omega
        rw [this]; module
      rw [e, comGH]
      module
  exact this _

end
section
variable {F G : Type} [Field F] [AddCommGroup G] [Module F G]
variable {base : G} {Gs Hs : List G} {x y : ℕ → F} {ix : Indexes} {kay ell enn tee : ℕ}
  {com : Blocks G} {rnd : Blocks F}

/-- What the ten scaled commitments open to. -/
theorem Spec.BlocksOpen.quad (h : BlocksOpen base Gs Hs x y ix kay ell enn tee com rnd)
    (hix : IsLayout ix kay ell enn tee) (r : F) :
    (List.zipWith (· • ·) (pows r 10) (List.zipWith (· + ·) com.comps com.pads)).sum
      = (List.zipWith (fun a b => b * a) (pows r 10) (List.zipWith (· + ·) rnd.comps rnd.pads)).sum • base
        + ((List.range (260 * 10)).map fun i => (x i * r ^ (i / 260)) • Gs.getD i 0
            + (y i * r ^ (i / 260)) • Hs.getD i 0).sum := by
  have key := comGH_blocks base Gs Hs x y 260 10 (by omega) r
    (fun k => (List.zipWith (· + ·) rnd.comps rnd.pads).getD k 0)
  have e1 : (List.zipWith (· • ·) (pows r 10) (List.zipWith (· + ·) com.comps com.pads))
      = (List.range 10).map fun k => r ^ k • comGH base Gs Hs x y (260 * k) 260
          ((List.zipWith (· + ·) rnd.comps rnd.pads).getD k 0) := by
    simp only [Blocks.comps, Blocks.pads, pows, List.range_succ, List.range_zero, List.nil_append,
      List.cons_append, List.map_cons, List.map_nil, List.zipWith_cons_cons, List.zipWith_nil_left,
      List.getD_cons_zero, List.getD_cons_succ]
    rw [h.dCompHi, h.dPadHi, h.dCompLo, h.dPadLo, h.rComp, h.rPad, h.eComp1Hi, h.ePad1Hi, h.eComp1Lo,
      h.ePad1Lo, h.eComp2Hi, h.ePad2Hi, h.eComp2Lo, h.ePad2Lo, h.sk2Comp, h.sk2Pad, h.kCompHi, h.kPadHi,
      h.kCompLo, h.kPadLo]
    rcases hix with rfl | rfl <;>
    · simp only [Indexes.swapSk, setIndexesNat, JLDIM, PAD_SIZE, Nat.zero_add, Nat.reduceAdd]
      simp only [← comGH_append base Gs Hs x y _ 256 4]
  have e2 : (List.zipWith (fun a b => b * a) (pows r 10) (List.zipWith (· + ·) rnd.comps rnd.pads))
      = (List.range 10).map fun k => r ^ k * (List.zipWith (· + ·) rnd.comps rnd.pads).getD k 0 := by
    simp only [Blocks.comps, Blocks.pads, pows, List.range_succ, List.range_zero, List.nil_append,
      List.cons_append, List.map_cons, List.map_nil, List.zipWith_cons_cons, List.zipWith_nil_left,
      List.getD_cons_zero, List.getD_cons_succ, mul_comm]
  rw [e1, e2, key]

/-- What the sum of the commitments to linear-only variables opens to. -/
theorem Spec.BlocksOpen.lin (h : BlocksOpen base Gs Hs x y ix kay ell enn tee com rnd)
    (hix : IsLayout ix kay ell enn tee) :
    com.lins.sum = rnd.lins.sum • base
      + ((List.range' (260 * 10) (ix.w - 260 * 10)).map fun i => x i • Gs.getD i 0).sum := by
  have hw : ix.w - 260 * 10 = kay * ell + kay * ell + kay * ell + tee + enn + 128 := by
    rcases hix with rfl | rfl <;>
      simp only [Indexes.swapSk, setIndexesNat, JLDIM, PAD_SIZE, LINYDIM] <;> omega
  obtain ⟨m, hm⟩ : ∃ m, m = kay * ell := ⟨_, rfl⟩
  have key : ∀ a b c d e f : F, comG base Gs x 2600 m a + comG base Gs x (2600 + m) m b
      + comG base Gs x (2600 + m + m) m c + comG base Gs x (2600 + m + m + m) tee d
      + comG base Gs x (2600 + m + m + m + tee) enn e + comG base Gs x (2600 + m + m + m + tee + enn) 128 f
      = comG base Gs x 2600 (m + m + m + tee + enn + 128) (a + b + c + d + e + f) := by
    intro a b c d e f
    rw [comG_append]
    have e1 : 2600 + m + m = 2600 + (m + m) := by omega
    have e2 : 2600 + m + m + m = 2600 + (m + m + m) := by omega
    have e3 : 2600 + m + m + m + tee = 2600 + (m + m + m + tee) := by omega
    have e4 : 2600 + m + m + m + tee + enn = 2600 + (m + m + m + tee + enn) := by omega
    rw [e4, e3, e2, e1, comG_append, comG_append, comG_append, comG_append]
  have hsum : com.lins.sum = comG base Gs x 2600 (m + m + m + tee + enn + 128) rnd.lins.sum := by
    simp only [Blocks.lins, List.sum_cons, List.sum_nil]
    rw [h.sk1, h.sk2, h.r, h.pt1, h.pt2, h.y, ← hm]
    rcases hix with rfl | rfl
    · simp only [setIndexesNat, JLDIM, PAD_SIZE, LINYDIM, Nat.zero_add, Nat.reduceAdd]
      rw [← hm]
      have := key rnd.sk1 rnd.sk2 rnd.r rnd.pt1 rnd.pt2 rnd.y
      rw [show rnd.pt1 + (rnd.sk1 + (rnd.pt2 + (rnd.r + (rnd.sk2 + (rnd.y + 0)))))
        = rnd.sk1 + rnd.sk2 + rnd.r + rnd.pt1 + rnd.pt2 + rnd.y by ring, ← this]
      abel
    · simp only [Indexes.swapSk, setIndexesNat, JLDIM, PAD_SIZE, LINYDIM, Nat.zero_add, Nat.reduceAdd]
      rw [← hm]
      have := key rnd.sk2 rnd.sk1 rnd.r rnd.pt1 rnd.pt2 rnd.y
      rw [show rnd.pt1 + (rnd.sk1 + (rnd.pt2 + (rnd.r + (rnd.sk2 + (rnd.y + 0)))))
        = rnd.sk2 + rnd.sk1 + rnd.r + rnd.pt1 + rnd.pt2 + rnd.y by ring, ← this]
      abel
  rw [hsum, hw, ← hm]
  rfl

end
end Verif
