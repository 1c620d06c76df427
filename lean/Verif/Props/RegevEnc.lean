/-
Properties C33, C34, C35, C38: Regev encryption.
-/
import Verif.Lemmas.RegevEnc
import Mathlib.Tactic.NormNum
import Mathlib.Tactic.FinCases

namespace Verif.Props
open Verif Verif.Spec Verif.Regev

section
variable {q ell : ℕ}

/-! ### C33: decoding -/

/-- **C33, any ring degree.** Decoding `-(x + e_0, Delta·x + e_1, .., Delta^(ell-1)·x + e_(ell-1))`
recovers the plaintext and the noise whenever no `e_(i+1) - Delta·e_i` wraps around the modulus and
the last noise coefficient is in `[⌊D/2⌋-D, ⌊D/2⌋)` for `D = Delta^(ell-1)`. -/
theorem C33_decode [NeZero q] (n delta : ℕ) (hd : 0 < delta) (x : ZMod q) (e : ℕ → ℤ)
    (hdiff : ∀ i < n, 2 * |e (i + 1) - delta * e i| < q)
    (hlo : (delta : ℤ) ^ n / 2 - (delta : ℤ) ^ n ≤ e n) (hhi : e n < (delta : ℤ) ^ n / 2) :
    decodePtxt (ell := n + 1) delta
        ⟨fun i => - (x * (delta : ZMod q) ^ i.val + (e i : ZMod q))⟩ =
      (x, ⟨fun i => (e i : ZMod q)⟩) := by
  obtain ⟨es, hes⟩ : ∃ es, es = (List.range n).map fun i => e (i + 1) := ⟨_, rfl⟩
  have hlist : e 0 :: es = (List.range (n + 1)).map e := by
    rw [hes, List.range_succ_eq_map]; simp [Function.comp_def]
  have hlen : es.length = n := by simp [hes]
  have hlast : (e 0 :: es).getLast (by simp) = e n := by
    simp only [hlist, List.getLast_map, List.getLast_range]; simp
  have hdiffs : ∀ (m : ℕ) (f : ℕ → ℤ), intDiffs delta ((List.range (m + 1)).map f) =
      (List.range m).map fun i => f (i + 1) - delta * f i := by
    intro m
    induction m with
    | zero => intro f; rfl
    | succ m ih =>
      intro f
      have h1 := ih (fun i => f (i + 1))
      rw [List.range_succ_eq_map, List.map_cons, List.map_map, List.range_succ_eq_map, List.map_cons,
        intDiffs, List.map_map, List.map_cons, List.map_map]
      rw [List.range_succ_eq_map, List.map_cons, List.map_map] at h1
      congr 1
  have hz : (Elt.toList ⟨fun i : Fin (n + 1) => - (x * (delta : ZMod q) ^ i.val + (e i : ZMod q))⟩) =
      (e 0 :: es).zipIdx.map fun p => - (x * (delta : ZMod q) ^ p.2) - (p.1 : ZMod q) := by
    rw [hlist]
    apply List.ext_getElem
    · simp [Elt.toList]
    · intro i h1 h2
      simp only [Elt.toList, List.getElem_ofFn, List.getElem_map, List.getElem_zipIdx,
        List.getElem_range, Nat.zero_add]
      ring
  have hdec : decodeNoise delta (n + 1)
      (Elt.toList ⟨fun i : Fin (n + 1) => - (x * (delta : ZMod q) ^ i.val + (e i : ZMod q))⟩) =
      (List.range (n + 1)).map e := by
    rw [hz, ← hlist]
    have := decodeNoise_eq (q := q) delta hd x (e 0) es (by
      rw [hlist, hdiffs]
      intro d hdm
      obtain ⟨i, hi, rfl⟩ := List.mem_map.1 hdm
      exact hdiff i (List.mem_range.1 hi)) (by rw [hlast, hlen]; exact hlo) (by rw [hlast, hlen]; exact hhi)
    rw [hlen] at this
    exact this
  have hget : ∀ i < n + 1, ((List.range (n + 1)).map e).getD i 0 = e i := by
    intro i hi
    rw [List.getD_eq_getElem?_getD, List.getElem?_map, List.getElem?_range hi]; rfl
  unfold decodePtxt
  simp only [hdec]
  refine Prod.ext ?_ ?_
  · simp only [hget 0 (by omega)]
    rw [Elt.coeff_lt _ (by omega : 0 < n + 1)]
    simp
  · simp only
    congr 1
    funext i
    rw [hget i i.isLt]

/-- **C33, the library's parameters** (`P`, `ell = 2`, `Delta = 2^126`): every plaintext and every
noise with both coefficients below `2^125` in absolute value. -/
theorem C33_library (x : ZMod P) (e0 e1 : ℤ) (h0 : |e0| < 2 ^ 125) (h1 : |e1| < 2 ^ 125) :
    decodePtxt (ell := 2) delta ⟨![-(x + (e0 : ZMod P)), -(x * (delta : ZMod P) + (e1 : ZMod P))]⟩ =
      (x, ⟨![(e0 : ZMod P), (e1 : ZMod P)]⟩) := by
  have hP : NeZero P := ⟨by unfold P; omega⟩
  have hdl : delta = 2 ^ 126 := by decide
  have a0 := abs_lt.1 h0
  have a1 := abs_lt.1 h1
  have := C33_decode (q := P) 1 delta (by rw [hdl]; positivity) x (fun i => if i = 0 then e0 else e1)
    (by
      intro i hi
      obtain rfl : i = 0 := by omega
      simp only [hdl, if_true, Nat.zero_add, one_ne_zero, if_false]
      have : |e1 - ((2 ^ 126 : ℕ) : ℤ) * e0| ≤ 2 ^ 125 + 2 ^ 126 * (2 ^ 125 - 1) := by
        rw [abs_le]; push_cast; constructor <;> nlinarith
      have hPP : ((P : ℕ) : ℤ) = 2 ^ 252 + 27742317777372353535851937790883648493 := by
        unfold P; push_cast
      rw [hPP]
      omega)
    (by simp only [hdl, pow_one, one_ne_zero, if_false]; push_cast; omega)
    (by simp only [hdl, pow_one, one_ne_zero, if_false]; push_cast; omega)
  convert this using 2
  · congr 1
    funext i; fin_cases i <;> simp
  · congr 1
    funext i; fin_cases i <;> simp

/-- **C33, the bound cannot be relaxed.** With noise `(0, 2^125)` every plaintext is decoded wrongly. -/
theorem C33_tight (x : ZMod P) :
    (decodePtxt (ell := 2) delta ⟨![-x, -(x * (delta : ZMod P) + (2 : ZMod P) ^ 125)]⟩).1 = x + 1 := by
  have hP : NeZero P := ⟨by unfold P; omega⟩
  have hdl : delta = 2 ^ 126 := by decide
  have hd : decodeDiffs delta (Elt.toList (⟨![-x, -(x * (delta : ZMod P) + (2 : ZMod P) ^ 125)]⟩ : Elt (ZMod P) 2)) =
      [2 ^ 125] := by
    simp only [Elt.toList, List.ofFn_succ, List.ofFn_zero, decodeDiffs, Fin.succ_zero_eq_one,
      Matrix.cons_val_zero, Matrix.cons_val_one]
    rw [balanced_eq]
    have : -x * (delta : ZMod P) - -(x * (delta : ZMod P) + (2 : ZMod P) ^ 125) =
        (((2 : ℤ) ^ 125 : ℤ) : ZMod P) := by push_cast; ring
    rw [this, valMinAbs_cast]
    rw [abs_of_nonneg (by positivity)]
    unfold P
    norm_num
  have hn : decodeNoise delta 2 (Elt.toList (⟨![-x, -(x * (delta : ZMod P) + (2 : ZMod P) ^ 125)]⟩ : Elt (ZMod P) 2)) =
      [-1, -2 ^ 125] := by
    unfold decodeNoise
    rw [hd, hdl]
    decide +kernel
  unfold decodePtxt
  simp only [hn, Elt.coeff_lt _ (by norm_num : 0 < 2)]
  simp

/-! ### C34: decryption inverts encryption -/

variable [Fact (1 < q)] [NeZero ell]

/-- The dimensions of a global key: a square CRS and one row per party. -/
structure Shaped (gk : GlobalKey q ell) : Prop where
  rowsA : gk.A.length = gk.kay
  colsA : ∀ row ∈ gk.A, row.length = gk.kay
  rowsB : gk.B.length = gk.enn
  colsB : ∀ row ∈ gk.B, row.length = gk.kay

/-- The inner product of two vectors of ring elements. -/
noncomputable def eltDot (a b : EVec q ell) : Elt (ZMod q) ell := (List.zipWith (· * ·) a b).sum

/-- `pk` is the public key of `(sk, noise)`: `pk_j = Σ_i sk_i·A_ij + noise_j`. -/
def IsPublicKey (gk : GlobalKey q ell) (sk noise pk : EVec q ell) : Prop :=
  pk.length = gk.kay ∧ ∀ j < gk.kay,
    pk.getD j 0 = eltDot sk (gk.A.map fun row => row.getD j 0) + noise.getD j 0

/-- What one successful encryption returned. -/
theorem encrypt_ok (delta : ℕ) (gk : GlobalKey q ell) (hs : Shaped gk) (ptxt : List (ZMod q))
    (rr r1 r2 : Rnd) (ct : EVec q ell × EVec q ell) (r e1 e2 : EVec q ell)
    (h : gk.encrypt delta ptxt rr r1 r2 = .ok (ct, (r, e1, e2))) :
    ptxt.length = gk.enn ∧
    sampleLoop gk.kay rho (4 * gk.kay * ell) rr 0 51 = .ok r ∧
    sampleLoop gk.kay gk.sigmaEnc1 (2 ^ (2 * gk.sigmaEnc1) * gk.kay * ell / 2) r1 0 25 = .ok e1 ∧
    sampleLoop gk.enn gk.sigmaEnc2 (2 ^ (2 * gk.sigmaEnc2) * gk.enn * ell / 2) r2 0 25 = .ok e2 ∧
    ct.1 = List.zipWith (· + ·) (gk.A.map fun row => ip row r) e1 ∧
    ct.2 = List.zipWith (· + ·) (gk.B.map fun row => ip row r)
      (List.zipWith (fun x e => x • g q ell delta + e) ptxt e2) := by
  unfold GlobalKey.encrypt at h
  rw [if_neg (by simp [hs.rowsA, hs.rowsB])] at h
  split at h
  · cases h
  · rename_i hp
    obtain ⟨r', hr', h⟩ := Res.bind_eq_ok.1 h
    obtain ⟨c1, hc1, h⟩ := Res.bind_eq_ok.1 h
    obtain ⟨c2, hc2, h⟩ := Res.bind_eq_ok.1 h
    obtain ⟨e1', he1', h⟩ := Res.bind_eq_ok.1 h
    obtain ⟨e2', he2', h⟩ := Res.bind_eq_ok.1 h
    have h := Res.ok.inj h
    simp only [Prod.mk.injEq] at h
    obtain ⟨h1, rfl, rfl, rfl⟩ := h
    subst h1
    unfold matVec at hc1 hc2
    split at hc1
    · cases hc1
    · split at hc2
      · cases hc2
      · cases hc1; cases hc2
        rw [hs.rowsB] at hp
        exact ⟨not_not.1 hp, hr', he1', he2', rfl, rfl⟩

/-- **C34.** Let `gk` have party `i`'s public key registered, and let an encryption of `ptxt` have
succeeded with randomness `r` and noise `e1, e2`.  Then party `i`'s decryption sees
`-(ptxt_i·g + E)` with `E = ⟨noise,r⟩ + e2_i - ⟨sk,e1⟩`; whenever `E` is within the bound of C33 it
returns exactly `ptxt_i` and `E`. -/
theorem C34_decrypt (n delta : ℕ) (hd : 0 < delta) (gk : GlobalKey q (n + 1)) (hs : Shaped gk)
    (sk noise : EVec q (n + 1)) (hsk : sk.length = gk.kay) (hno : noise.length = gk.kay)
    (i : ℕ) (hi : i < gk.enn) (hpk : IsPublicKey gk sk noise (gk.B.getD i []))
    (ptxt : List (ZMod q)) (rr r1 r2 : Rnd) (ct : EVec q (n + 1) × EVec q (n + 1))
    (r e1 e2 : EVec q (n + 1))
    (henc : gk.encrypt delta ptxt rr r1 r2 = .ok (ct, (r, e1, e2)))
    (E : ℕ → ℤ) (hE : eltDot noise r + e2.getD i 0 - eltDot sk e1 = ⟨fun k => (E k : ZMod q)⟩)
    (hdiff : ∀ k < n, 2 * |E (k + 1) - delta * E k| < q)
    (hlo : (delta : ℤ) ^ n / 2 - (delta : ℤ) ^ n ≤ E n) (hhi : E n < (delta : ℤ) ^ n / 2) :
    gk.decrypt delta sk i ct = .ok (ptxt.getD i 0, ⟨fun k => (E k : ZMod q)⟩) := by
  have hq : NeZero q := ⟨by have := (Fact.out : 1 < q); omega⟩
  obtain ⟨hp, hr, he1, he2, hc1, hc2⟩ := encrypt_ok delta gk hs ptxt rr r1 r2 ct r e1 e2 henc
  have lr := (sampleLoop_ok _ _ _ _ _ _ _ hr).1
  have l1 := (sampleLoop_ok _ _ _ _ _ _ _ he1).1
  have l2 := (sampleLoop_ok _ _ _ _ _ _ _ he2).1
  have L1 : ct.1.length = gk.kay := by simp [hc1, hs.rowsA, l1]
  have L2 : ct.2.length = gk.enn := by simp [hc2, hs.rowsB, l2, hp]
  unfold GlobalKey.decrypt
  rw [if_neg (by simp [hsk]), if_neg (by simp [L1, L2]), if_neg (by omega)]
  have hrd : rd ct.2 ((i : ℤ).toNat) = .ok (ip (gk.B.getD i []) r +
      (ptxt.getD i 0 • g q (n + 1) delta + e2.getD i 0)) := by
    rw [Int.toNat_natCast, rd_ok (by omega)]
    congr 1
    have hB : i < gk.B.length := by rw [hs.rowsB]; exact hi
    have hp' : i < ptxt.length := by rw [hp]; exact hi
    have he' : i < e2.length := by rw [l2]; exact hi
    simp only [hc2, List.getElem_zipWith, List.getElem_map, List.getD_eq_getElem?_getD,
      List.getElem?_eq_getElem hB, List.getElem?_eq_getElem hp', List.getElem?_eq_getElem he',
      Option.getD_some]
  rw [hrd, Res.ok_bind]
  congr 1
  -- the public key times r
  have hB : gk.B.getD i [] = List.zipWith (· + ·)
      ((List.range gk.kay).map fun j => ip sk (gk.A.map fun row => row.getD j 0)) noise := by
    apply List.ext_getElem
    · rw [hpk.1]; simp [hno]
    · intro j h1 h2
      have hj : j < gk.kay := by rw [← hpk.1]; exact h1
      have := hpk.2 j hj
      rw [List.getD_eq_getElem?_getD, List.getElem?_eq_getElem h1, Option.getD_some] at this
      rw [this]
      simp only [List.getElem_zipWith, List.getElem_map, List.getElem_range, eltDot, ip_eq_sum,
        List.getD_eq_getElem?_getD, List.getElem?_eq_getElem (show j < noise.length by omega),
        Option.getD_some]
  have h1 : ip (gk.B.getD i []) r = ip sk (gk.A.map fun row => ip row r) + ip noise r := by
    rw [hB, ip_add_left _ _ _ (by simp [lr]) (by simp [hno, lr]),
      ip_assoc sk r gk.A gk.kay (by rw [hsk, hs.rowsA]) hs.colsA lr]
  have h2 : ip sk ct.1 = ip sk (gk.A.map fun row => ip row r) + ip sk e1 := by
    rw [hc1, ip_add_right _ _ _ (by simp [hs.rowsA, hsk]) (by rw [l1, hsk])]
  have h3 : ip sk ct.1 - (ip (gk.B.getD i []) r +
      (ptxt.getD i 0 • g q (n + 1) delta + e2.getD i 0)) =
      ⟨fun k => - (ptxt.getD i 0 * (delta : ZMod q) ^ k.val + (E k : ZMod q))⟩ := by
    rw [h1, h2]
    have hE' : ip noise r + e2.getD i 0 - ip sk e1 = ⟨fun k => (E k : ZMod q)⟩ := by
      rw [ip_eq_sum, ip_eq_sum]; exact hE
    rw [show ip sk (gk.A.map fun row => ip row r) + ip sk e1 -
        (ip sk (gk.A.map fun row => ip row r) + ip noise r +
        (ptxt.getD i 0 • g q (n + 1) delta + e2.getD i 0)) =
        -(ptxt.getD i 0 • g q (n + 1) delta + (ip noise r + e2.getD i 0 - ip sk e1)) by ring, hE']
    rfl
  rw [h3]
  exact C33_decode n delta hd _ E hdiff hlo hhi

/-- **C34, error branches.** A secret key, ciphertext or index of the wrong size is refused, and
so is a plaintext vector of the wrong length. -/
theorem C34_throws (delta : ℕ) (gk : GlobalKey q ell) (sk : EVec q ell) (idx : ℤ)
    (ct : EVec q ell × EVec q ell) (ptxt : List (ZMod q)) (rr r1 r2 : Rnd) :
    (sk.length ≠ gk.kay ∨ ct.1.length ≠ gk.kay ∨ ct.2.length ≠ gk.enn ∨ idx < 0 ∨ (gk.enn : ℤ) ≤ idx →
      gk.decrypt delta sk idx ct = .throw) ∧
    (ptxt.length ≠ gk.enn → gk.encrypt delta ptxt rr r1 r2 = .throw) := by
  constructor
  · intro h
    unfold GlobalKey.decrypt
    split
    · rfl
    · split
      · rfl
      · split
        · rfl
        · rename_i h1 h2 h3
          push Not at h1 h2 h3
          rcases h with h | h | h | h | h
          · exact absurd h1 h
          · exact absurd h2.1 h
          · exact absurd h2.2 h
          · omega
          · omega
  · intro h
    unfold GlobalKey.encrypt
    split
    · rfl
    · rename_i h1
      push Not at h1
      rw [if_pos (by rw [h1.2]; exact h)]

/-! ### C35: the library's parameters never lead to a decryption failure -/

/-- What one successful key generation returned. -/
theorem keyGen_ok (gk : GlobalKey q ell) (hs : Shaped gk) (rsk rno : Rnd) (sk pk noise : EVec q ell)
    (h : gk.keyGen rsk rno = .ok (sk, pk, noise)) :
    sampleLoop gk.kay rho (4 * gk.kay * ell) rsk 0 51 = .ok sk ∧
    sampleLoop gk.kay gk.sigmaEnc1 (2 ^ (2 * gk.sigmaEnc1) * gk.kay * ell / 2) rno 0 51 = .ok noise ∧
    IsPublicKey gk sk noise pk := by
  have hq : NeZero q := ⟨by have := (Fact.out : 1 < q); omega⟩
  unfold GlobalKey.keyGen at h
  obtain ⟨sk', h1, h⟩ := Res.bind_eq_ok.1 h
  obtain ⟨no', h2, h⟩ := Res.bind_eq_ok.1 h
  obtain ⟨skA, h3, h⟩ := Res.bind_eq_ok.1 h
  have h := Res.ok.inj h
  simp only [Prod.mk.injEq] at h
  obtain ⟨rfl, rfl, rfl⟩ := h
  refine ⟨h1, h2, ?_⟩
  have l1 := (sampleLoop_ok _ _ _ _ _ _ _ h1).1
  have l2 := (sampleLoop_ok _ _ _ _ _ _ _ h2).1
  unfold vecMat at h3
  rw [if_neg (by simp [l1, hs.rowsA])] at h3
  cases h3
  refine ⟨by simp [l2], fun j hj => ?_⟩
  rw [getD_zipWith_add _ _ (by simp [l2])]
  congr 1
  rw [List.getD_eq_getElem?_getD, List.getElem?_map, List.getElem?_range hj, Option.map_some,
    Option.getD_some, ip_eq_sum]
  rfl

/-- **C35, the accumulated noise.** For every outcome of key generation and encryption that passes
the rejection sampling, every coefficient of `⟨noise,r⟩ + e2_i - ⟨sk,e1⟩` has a representative of
absolute value below `3·kay·ell·2^sigma1 + 2^sigma2`. -/
theorem C35_noise (delta : ℕ) (gk gk' : GlobalKey q ell) (hs : Shaped gk) (hs' : Shaped gk')
    (hk : gk'.kay = gk.kay) (h1 : gk'.sigmaEnc1 = gk.sigmaEnc1)
    (rsk rno : Rnd) (sk pk noise : EVec q ell) (hkey : gk.keyGen rsk rno = .ok (sk, pk, noise))
    (ptxt : List (ZMod q)) (rr r1 r2 : Rnd) (ct : EVec q ell × EVec q ell) (r e1 e2 : EVec q ell)
    (henc : gk'.encrypt delta ptxt rr r1 r2 = .ok (ct, (r, e1, e2))) (i : ℕ) (hi : i < gk'.enn)
    (k : Fin ell) :
    |((eltDot noise r + e2.getD i 0 - eltDot sk e1).c k).valMinAbs| <
      3 * (gk.kay * ell) * 2 ^ gk.sigmaEnc1 + 2 ^ gk'.sigmaEnc2 := by
  have hq : NeZero q := ⟨by have := (Fact.out : 1 < q); omega⟩
  obtain ⟨a1, a2, -⟩ := keyGen_ok gk hs _ _ _ _ _ hkey
  obtain ⟨-, b1, b2, b3, -, -⟩ := encrypt_ok delta gk' hs' _ _ _ _ _ _ _ _ henc
  obtain ⟨l1, n1, -⟩ := sampleLoop_ok _ _ _ _ _ _ _ a1
  obtain ⟨l2, n2, -⟩ := sampleLoop_ok _ _ _ _ _ _ _ a2
  obtain ⟨l3, n3, -⟩ := sampleLoop_ok _ _ _ _ _ _ _ b1
  obtain ⟨l4, n4, -⟩ := sampleLoop_ok _ _ _ _ _ _ _ b2
  obtain ⟨l5, -, n5⟩ := sampleLoop_ok _ _ _ _ _ _ _ b3
  rw [hk] at l3 n3 l4 n4
  rw [h1] at n4
  obtain ⟨N1, hN1, c1⟩ := ip_coeff_bound noise r (by rw [l2, l3]) k
  obtain ⟨N2, hN2, c2⟩ := ip_coeff_bound sk e1 (by rw [l1, l4]) k
  have he2 : i < e2.length := by rw [l5]; exact hi
  have hz := n5 (e2.getD i 0) (by
    rw [List.getD_eq_getElem?_getD, List.getElem?_eq_getElem he2, Option.getD_some]
    exact List.getElem_mem he2) k
  obtain ⟨z, hzz⟩ : ∃ z, z = ((e2.getD i 0).c k).valMinAbs := ⟨_, rfl⟩
  rw [← hzz] at hz
  have hval : (eltDot noise r + e2.getD i 0 - eltDot sk e1).c k = ((N1 + z - N2 : ℤ) : ZMod q) := by
    have : (eltDot noise r + e2.getD i 0 - eltDot sk e1).c k =
        (ip noise r).c k + (e2.getD i 0).c k - (ip sk e1).c k := by
      rw [ip_eq_sum, ip_eq_sum]; rfl
    rw [this, hN1, hN2, hzz]; push_cast; simp
  rw [hval]
  refine lt_of_le_of_lt (valMinAbs_le _) ?_
  obtain ⟨K, hK⟩ : ∃ K : ℤ, K = (gk.kay : ℤ) * ell := ⟨_, rfl⟩
  obtain ⟨S, hS⟩ : ∃ S : ℤ, S = 2 ^ gk.sigmaEnc1 := ⟨_, rfl⟩
  have hK0 : 0 ≤ K := by rw [hK]; positivity
  have hS0 : 0 < S := by rw [hS]; positivity
  have hS2 : (2 : ℤ) ^ (2 * gk.sigmaEnc1) = S ^ 2 := by rw [hS, ← pow_mul, mul_comm]
  rw [hS2, mul_assoc, ← hK] at n2 n4
  rw [mul_assoc, ← hK] at n1 n3
  rw [← hK, ← hS]
  have m2 : 2 * normSq (coeffs noise) ≤ S ^ 2 * K := by omega
  have m4 : 2 * normSq (coeffs e1) ≤ S ^ 2 * K := by omega
  have key : ∀ N a b : ℤ, 0 ≤ a → 0 ≤ b → N ^ 2 ≤ a * b → 2 * a ≤ S ^ 2 * K → b ≤ 4 * K →
      2 * |N| ≤ 3 * K * S := by
    intro N a b ha hb hN h1 h2
    have : (2 * |N|) ^ 2 ≤ (3 * K * S) ^ 2 := by
      have e : (2 * |N|) ^ 2 = 4 * N ^ 2 := by rw [mul_pow, sq_abs]; norm_num
      have h3 : a * b ≤ a * (4 * K) := mul_le_mul_of_nonneg_left h2 ha
      have h4 : 2 * a * (2 * K) ≤ S ^ 2 * K * (2 * K) := mul_le_mul_of_nonneg_right h1 (by positivity)
      nlinarith [mul_nonneg (sq_nonneg S) (sq_nonneg K)]
    exact (pow_le_pow_iff_left₀ (by positivity) (by positivity) two_ne_zero).1 this
  have k1 := key N1 _ _ (normSq_nonneg _) (normSq_nonneg _) c1 m2 n3
  have k2 := key N2 _ _ (normSq_nonneg _) (normSq_nonneg _) (by rw [mul_comm]; exact c2) m4 n1
  have t : |N1 + z - N2| ≤ |N1| + |z| + |N2| := by
    refine (abs_sub _ _).trans ?_
    linarith [abs_add_le N1 z]
  linarith

/-! ### C38: registering public keys -/

/-- A sequence of `addPK` calls: the final state and the results. -/
def addAll (gk : GlobalKey q ell) : List (EVec q ell) → GlobalKey q ell × List (Res ℕ)
  | [] => (gk, [])
  | pk :: pks => let s := gk.addPK pk; let t := addAll s.1 pks; (t.1, s.2 :: t.2)

/-- The keys a history registers: those of the right length, as long as there is room. -/
def registered (kay enn : ℕ) (pks : List (EVec q ell)) : List (EVec q ell) :=
  (pks.filter fun pk => pk.length = kay).take enn

omit [Fact (1 < q)] [NeZero ell] in
theorem addAll_append (gk : GlobalKey q ell) (a : List (EVec q ell)) (pk : EVec q ell) :
    addAll gk (a ++ [pk]) = (((addAll gk a).1.addPK pk).1, (addAll gk a).2 ++ [((addAll gk a).1.addPK pk).2]) := by
  induction a generalizing gk with
  | nil => rfl
  | cons b a ih => simp only [List.cons_append, addAll, ih]

omit [Fact (1 < q)] [NeZero ell] in
/-- **C38.** After any history of `addPK` calls on a key without registered parties: the parameters
and the CRS are unchanged; the rows used by encryption are, in order, the first `enn` keys of the
right length, followed by the rows the key was created with; the `j`-th call returned the number of
keys registered before it, unless its key has the wrong length or all `enn` places were taken, and
then it threw. -/
theorem C38_history (gk : GlobalKey q ell) (hn : gk.nPks = 0) (hB : gk.B.length = gk.enn)
    (pks : List (EVec q ell)) :
    (addAll gk pks).1 = { gk with
      nPks := (registered gk.kay gk.enn pks).length
      B := registered gk.kay gk.enn pks ++ gk.B.drop (registered gk.kay gk.enn pks).length } ∧
    (addAll gk pks).2.length = pks.length ∧
    ∀ j pk, pks[j]? = some pk → (addAll gk pks).2[j]? = some
      (if pk.length = gk.kay ∧ (registered gk.kay gk.enn (pks.take j)).length < gk.enn
       then .ok (registered gk.kay gk.enn (pks.take j)).length else .throw) := by
  induction pks using List.reverseRecOn with
  | nil =>
    refine ⟨?_, rfl, by simp⟩
    cases gk
    simp only at hn
    simp [addAll, registered, hn]
  | append_singleton a pk ih =>
    obtain ⟨h1, h2, h3⟩ := ih
    obtain ⟨R, hR⟩ : ∃ R, R = registered gk.kay gk.enn a := ⟨_, rfl⟩
    rw [← hR] at h1
    have hRlen : R.length ≤ gk.enn := by rw [hR, registered, List.length_take]; omega
    have hstep : (addAll gk a).1.addPK pk =
        (if pk.length = gk.kay ∧ R.length < gk.enn then
          ({ gk with nPks := R.length + 1, B := (R ++ gk.B.drop R.length).set R.length pk },
            .ok R.length)
         else ((addAll gk a).1, .throw)) := by
      rw [h1]
      unfold GlobalKey.addPK
      by_cases hl : pk.length = gk.kay
      · simp only [hl, ne_eq, not_true, if_false, true_and]
        by_cases hr : R.length < gk.enn
        · rw [if_neg (by omega), if_pos hr]
        · rw [if_pos (by omega), if_neg hr]
          rfl
      · rw [if_pos (by simpa using hl), if_neg (by simp [hl])]
    have hreg : registered gk.kay gk.enn (a ++ [pk]) =
        if pk.length = gk.kay ∧ R.length < gk.enn then R ++ [pk] else R := by
      rw [hR]
      unfold registered
      rw [List.filter_append, List.length_take]
      by_cases hl : pk.length = gk.kay
      · simp only [List.filter_cons, hl, decide_true, if_true, List.filter_nil, true_and]
        split
        · rename_i h
          rw [List.take_of_length_le (l := _ ++ _), List.take_of_length_le]
          · omega
          · simp only [List.length_append, List.length_cons, List.length_nil]; omega
        · rename_i h
          rw [List.take_append_of_le_length (by omega)]
      · simp [List.filter_cons, hl]
    rw [addAll_append, hstep, hreg]
    refine ⟨?_, ?_, ?_⟩
    · by_cases hc : pk.length = gk.kay ∧ R.length < gk.enn
      · simp only [if_pos hc]
        have : (R ++ gk.B.drop R.length).set R.length pk = R ++ [pk] ++ gk.B.drop (R.length + 1) := by
          rw [List.set_append_right _ _ (le_refl _), Nat.sub_self,
            List.drop_eq_getElem_cons (by omega : R.length < gk.B.length), List.set_cons_zero]
          simp
        rw [this]; simp
      · simp only [if_neg hc]; rw [h1]
    · simp [h2]
    · intro j p hj
      by_cases hja : j < a.length
      · rw [List.getElem?_append_left (by omega)] at hj
        rw [List.getElem?_append_left (by omega), h3 j p hj, List.take_append_of_le_length (by omega)]
      · have hje : j = a.length := by
          have := List.getElem?_eq_some_iff.1 hj
          obtain ⟨h, -⟩ := this
          simp at h; omega
        subst hje
        rw [List.getElem?_append_right (by omega)] at hj ⊢
        simp only [Nat.sub_self, List.getElem?_cons_zero, Option.some.injEq, h2] at hj ⊢
        subst hj
        simp only [List.take_left', ← hR]
        split <;> rfl

/-- The shape is an invariant, and a new key has it. -/
theorem new_shaped (k n s1 s2 : ℤ) (crs : ℕ → ℕ → Elt (ZMod q) ell) (gk : GlobalKey q ell)
    (h : GlobalKey.new k n s1 s2 crs = .ok gk) :
    Shaped gk ∧ gk.nPks = 0 ∧ (gk.kay : ℤ) = k ∧ (gk.enn : ℤ) = n ∧ (gk.sigmaEnc1 : ℤ) = s1 ∧
      (gk.sigmaEnc2 : ℤ) = s2 ∧ ∀ row ∈ gk.B, row = List.replicate gk.kay 0 := by
  unfold GlobalKey.new at h
  split at h
  · cases h
  · rename_i hc
    simp only at h
    split at h
    · cases h
    · obtain rfl := Res.ok.inj h
      push Not at hc
      refine ⟨⟨by simp, ?_, by simp, ?_⟩, rfl, by simp; omega, by simp; omega, by simp; omega,
        by simp; omega, ?_⟩
      · simp only [List.mem_map]; rintro row ⟨i, -, rfl⟩; simp
      · intro row hrow; rw [List.eq_of_mem_replicate hrow]; simp
      · intro row hrow; exact List.eq_of_mem_replicate hrow

theorem addAll_shaped (gk : GlobalKey q ell) (hs : Shaped gk) (hn : gk.nPks = 0)
    (pks : List (EVec q ell)) : Shaped (addAll gk pks).1 := by
  rw [(C38_history gk hn hs.rowsB pks).1]
  refine ⟨hs.rowsA, hs.colsA, ?_, ?_⟩
  · simp only [List.length_append, List.length_drop, hs.rowsB, registered, List.length_take]; omega
  · intro row hrow
    rcases List.mem_append.1 hrow with h | h
    · have := List.mem_of_mem_take h
      simpa using (List.mem_filter.1 this).2
    · exact hs.colsB row (List.mem_of_mem_drop h)

end

section library
instance factP : Fact (1 < P) := ⟨by unfold P; omega⟩

/-- **C35, end to end.** In the library's ring, let a global key be created with parameters that
satisfy `3·k·ell·2^sigma1 + 2^sigma2 ≤ 2^125`, let a party generate a key pair at any time, and let any history of
`addPK` calls register, among others, that public key at index `i`.  Then every successful
encryption of every plaintext vector decrypts at `i` to the `i`-th plaintext, and the noise that decryption
returns is below `3·k·ell·2^sigma1 + 2^sigma2`. -/
theorem C35_no_failure (k n s1 s2 : ℤ) (hpar : 3 * (k * 2) * 2 ^ s1.toNat + 2 ^ s2.toNat ≤ (2 : ℤ) ^ 125)
    (crs : ℕ → ℕ → Elt (ZMod P) 2) (gk0 : GlobalKey P 2) (hnew : GlobalKey.new k n s1 s2 crs = .ok gk0)
    (pks0 : List (EVec P 2)) (rsk rno : Rnd) (sk pk noise : EVec P 2)
    (hkey : (addAll gk0 pks0).1.keyGen rsk rno = .ok (sk, pk, noise))
    (pks : List (EVec P 2)) (i : ℕ) (hi : (i : ℤ) < n) (hreg : (registered gk0.kay gk0.enn pks)[i]? = some pk)
    (ptxt : List (ZMod P)) (rr r1 r2 : Rnd) (ct : EVec P 2 × EVec P 2) (w : EVec P 2 × EVec P 2 × EVec P 2)
    (henc : (addAll gk0 pks).1.encrypt delta ptxt rr r1 r2 = .ok (ct, w)) :
    ∃ noise', (addAll gk0 pks).1.decrypt delta sk i ct = .ok (ptxt.getD i 0, noise') ∧
      ∀ j, |(noise'.c j).valMinAbs| < 3 * (k * 2) * 2 ^ s1.toNat + 2 ^ s2.toNat := by
  have hP : NeZero P := ⟨by unfold P; omega⟩
  obtain ⟨hs, hn0, hk, hn, hs1, hs2, -⟩ := new_shaped k n s1 s2 crs gk0 hnew
  obtain ⟨r, e1, e2⟩ := w
  have hkey : gk0.keyGen rsk rno = .ok (sk, pk, noise) := by
    rw [(C38_history gk0 hn0 hs.rowsB pks0).1] at hkey; exact hkey
  have hs' := addAll_shaped gk0 hs hn0 pks
  have hist := (C38_history gk0 hn0 hs.rowsB pks).1
  obtain ⟨gk, hgk⟩ : ∃ gk, gk = (addAll gk0 pks).1 := ⟨_, rfl⟩
  rw [← hgk] at hs' hist henc ⊢
  have ek : gk.kay = gk0.kay := by rw [hist]
  have ee : gk.enn = gk0.enn := by rw [hist]
  have e1' : gk.sigmaEnc1 = gk0.sigmaEnc1 := by rw [hist]
  have e2' : gk.sigmaEnc2 = gk0.sigmaEnc2 := by rw [hist]
  have eA : gk.A = gk0.A := by rw [hist]
  obtain ⟨a1, a2, hpk⟩ := keyGen_ok gk0 hs _ _ _ _ _ hkey
  have hBi : gk.B.getD i [] = pk := by
    rw [hist]
    simp only [List.getD_eq_getElem?_getD]
    rw [List.getElem?_append_left (List.getElem?_eq_some_iff.1 hreg).1, hreg]
    rfl
  have hi' : i < gk.enn := by rw [ee]; omega
  have bd := C35_noise delta gk0 gk hs hs' ek e1' rsk rno sk pk noise hkey ptxt rr r1 r2 ct r e1 e2
    henc i hi'
  have hbnd : (3 * ((gk0.kay : ℤ) * (2 : ℕ)) * 2 ^ gk0.sigmaEnc1 + 2 ^ gk.sigmaEnc2 : ℤ) ≤ 2 ^ 125 := by
    rw [e2', hk]
    have t1 : gk0.sigmaEnc1 = s1.toNat := by omega
    have t2 : gk0.sigmaEnc2 = s2.toNat := by omega
    rw [t1, t2]; exact_mod_cast hpar
  have hdl : delta = 2 ^ 126 := by decide
  obtain ⟨E, hE⟩ : ∃ E : Elt (ZMod P) 2, E = eltDot noise r + e2.getD i 0 - eltDot sk e1 := ⟨_, rfl⟩
  rw [← hE] at bd
  have b0 := abs_lt.1 (lt_of_lt_of_le (bd 0) hbnd)
  have b1 := abs_lt.1 (lt_of_lt_of_le (bd 1) hbnd)
  refine ⟨_, C34_decrypt 1 delta (by rw [hdl]; positivity) gk hs' sk noise
    (by rw [ek]; exact (sampleLoop_ok _ _ _ _ _ _ _ a1).1)
    (by rw [ek]; exact (sampleLoop_ok _ _ _ _ _ _ _ a2).1) i hi'
    (by rw [hBi]; unfold IsPublicKey; rw [ek, eA]; exact hpk) ptxt rr r1 r2 ct r e1 e2 henc
    (fun k => if k = 0 then (E.c 0).valMinAbs else (E.c 1).valMinAbs) ?_ ?_ ?_ ?_, ?_⟩
  · rw [← hE]
    have : ∀ k : Fin 2, E.c k = (((if k.val = 0 then (E.c 0).valMinAbs else (E.c 1).valMinAbs : ℤ)) : ZMod P) := by
      intro k; fin_cases k <;> simp
    cases E
    congr 1
    funext k
    exact this k
  · intro k hk
    obtain rfl : k = 0 := by omega
    simp only [hdl, if_true, Nat.zero_add, one_ne_zero, if_false]
    have : |(E.c 1).valMinAbs - ((2 ^ 126 : ℕ) : ℤ) * (E.c 0).valMinAbs| ≤ 2 ^ 125 + 2 ^ 126 * (2 ^ 125 - 1) := by
      rw [abs_le]; push_cast; constructor <;> nlinarith
    have hPP : ((P : ℕ) : ℤ) = 2 ^ 252 + 27742317777372353535851937790883648493 := by
      unfold P; push_cast
    rw [hPP]
    omega
  · simp only [hdl, pow_one, one_ne_zero, if_false]; push_cast; omega
  · simp only [hdl, pow_one, one_ne_zero, if_false]; push_cast; omega
  · have hb : (3 * ((gk0.kay : ℤ) * (2 : ℕ)) * 2 ^ gk0.sigmaEnc1 + 2 ^ gk.sigmaEnc2 : ℤ) =
        3 * (k * 2) * 2 ^ s1.toNat + 2 ^ s2.toNat := by
      rw [e2', hk, show gk0.sigmaEnc1 = s1.toNat by omega, show gk0.sigmaEnc2 = s2.toNat by omega]; rfl
    rw [← hb]
    intro j
    refine lt_of_le_of_lt (le_of_eq (congrArg abs (congrArg ZMod.valMinAbs ?_))) (bd j)
    fin_cases j <;> simp

/-- **C38, unregistered places.** Encryption does not check that all places are taken.  At a place
without a registered key the plaintext can be read from the public ciphertext alone: decoding
`-ctxt2_i`, with no key, returns it. -/
theorem C38_unregistered_leak (k n s1 s2 : ℤ) (hs2' : s2 ≤ 125)
    (crs : ℕ → ℕ → Elt (ZMod P) 2) (gk0 : GlobalKey P 2) (hnew : GlobalKey.new k n s1 s2 crs = .ok gk0)
    (pks : List (EVec P 2)) (i : ℕ) (hi : (i : ℤ) < n)
    (hunreg : (registered gk0.kay gk0.enn pks).length ≤ i)
    (ptxt : List (ZMod P)) (rr r1 r2 : Rnd) (ct : EVec P 2 × EVec P 2) (w : EVec P 2 × EVec P 2 × EVec P 2)
    (henc : (addAll gk0 pks).1.encrypt delta ptxt rr r1 r2 = .ok (ct, w)) :
    (decodePtxt delta (- ct.2.getD i 0)).1 = ptxt.getD i 0 := by
  have hP : NeZero P := ⟨by unfold P; omega⟩
  obtain ⟨hs, hn0, hk, hn, hs1, hs2, hz⟩ := new_shaped k n s1 s2 crs gk0 hnew
  obtain ⟨r, e1, e2⟩ := w
  have hs' := addAll_shaped gk0 hs hn0 pks
  have hist := (C38_history gk0 hn0 hs.rowsB pks).1
  obtain ⟨gk, hgk⟩ : ∃ gk, gk = (addAll gk0 pks).1 := ⟨_, rfl⟩
  rw [← hgk] at hs' hist henc
  have ek : gk.kay = gk0.kay := by rw [hist]
  have ee : gk.enn = gk0.enn := by rw [hist]
  have e2' : gk.sigmaEnc2 = gk0.sigmaEnc2 := by rw [hist]
  obtain ⟨hp, hr, he1, he2, hc1, hc2⟩ := encrypt_ok delta gk hs' ptxt rr r1 r2 ct r e1 e2 henc
  obtain ⟨l5, -, n5⟩ := sampleLoop_ok _ _ _ _ _ _ _ he2
  have lr := (sampleLoop_ok _ _ _ _ _ _ _ hr).1
  have hi' : i < gk.enn := by rw [ee]; omega
  have hB : i < gk.B.length := by rw [hs'.rowsB]; exact hi'
  have hp' : i < ptxt.length := by rw [hp]; exact hi'
  have he' : i < e2.length := by rw [l5]; exact hi'
  have hrow : gk.B[i] = List.replicate gk0.kay 0 := by
    obtain ⟨row, hrow⟩ : ∃ row, row = gk.B[i] := ⟨_, rfl⟩
    have h1 : gk.B[i]? = some row := by rw [hrow]; exact List.getElem?_eq_getElem hB
    have h2 : row ∈ gk0.B := by
      rw [hist] at h1
      simp only at h1
      rw [List.getElem?_append_right hunreg, List.getElem?_drop] at h1
      exact List.mem_of_getElem? h1
    rw [← hrow, hz _ h2]
  have hip : ip gk.B[i] r = 0 := by
    rw [hrow, ip_eq _ r gk0.kay (by simp) (by rw [lr, ek])]
    refine Finset.sum_eq_zero fun j hj => ?_
    have := Finset.mem_range.1 hj
    rw [List.getD_eq_getElem?_getD, List.getElem?_replicate]
    simp [this]
  have hct : ct.2.getD i 0 = ptxt.getD i 0 • g P 2 delta + e2.getD i 0 := by
    have : ct.2[i]? = some (ip gk.B[i] r + (ptxt[i] • g P 2 delta + e2[i])) := by
      rw [hc2]; simp [hB, hp', he']
    rw [List.getD_eq_getElem?_getD, this, hip, List.getD_eq_getElem?_getD,
      List.getD_eq_getElem?_getD, List.getElem?_eq_getElem hp', List.getElem?_eq_getElem he']
    simp
  obtain ⟨e, he⟩ : ∃ e, e = e2.getD i 0 := ⟨_, rfl⟩
  have hbd : ∀ k, |(e.c k).valMinAbs| < 2 ^ 125 := by
    intro k
    refine lt_of_lt_of_le (n5 e (by
      rw [he, List.getD_eq_getElem?_getD, List.getElem?_eq_getElem he', Option.getD_some]
      exact List.getElem_mem he') k) ?_
    exact pow_le_pow_right₀ (by norm_num) (by rw [e2']; omega)
  have := C33_library (ptxt.getD i 0) _ _ (hbd 0) (hbd 1)
  rw [hct, ← he]
  have heq : -(ptxt.getD i 0 • g P 2 delta + e) =
      ⟨![-(ptxt.getD i 0 + (((e.c 0).valMinAbs : ℤ) : ZMod P)),
         -(ptxt.getD i 0 * (delta : ZMod P) + (((e.c 1).valMinAbs : ℤ) : ZMod P))]⟩ := by
    have hc : ∀ k : Fin 2, (-(ptxt.getD i 0 • g P 2 delta + e)).c k =
        -(ptxt.getD i 0 * (delta : ZMod P) ^ k.val + e.c k) := fun k => rfl
    obtain ⟨y, hy⟩ : ∃ y, y = -(ptxt.getD i 0 • g P 2 delta + e) := ⟨_, rfl⟩
    rw [← hy] at hc ⊢
    cases y
    congr 1
    funext k
    refine (hc k).trans ?_
    fin_cases k <;> simp
  rw [heq, this]

/-! A concrete run that meets the hypotheses above: five places, a CRS of dimension 1, one party
registered, non-zero key, noise and plaintexts. -/

/-- Small non-zero "random" bits. -/
def exRnd : Rnd := fun _ i j => (i + j + 1, j = 1)
def exGk : Res (GlobalKey P 2) := GlobalKey.new 1 5 2 3 (fun _ _ => ⟨![7, 11]⟩)
def exRun : Res (GlobalKey P 2 × (EVec P 2 × EVec P 2 × EVec P 2) ×
    ((EVec P 2 × EVec P 2) × (EVec P 2 × EVec P 2 × EVec P 2))) := do
  let gk0 ← exGk
  let key ← gk0.keyGen exRnd exRnd
  let enc ← (addAll gk0 [[], key.2.1]).1.encrypt delta [10, 20, 30, 40, 50] exRnd exRnd exRnd
  .ok (gk0, key, enc)

def exPlain : Res (List ℕ) := do
  let (gk0, key, enc) ← exRun
  let d ← (addAll gk0 [[], key.2.1]).1.decrypt delta key.1 0 enc.1
  .ok (d.1.val :: d.2.toList.map ZMod.val)

example : exPlain = .ok [10, 1, P - 2] := by decide +kernel

example : ∃ gk0 sk pk noise ct w, exGk = .ok gk0 ∧
    gk0.keyGen exRnd exRnd = .ok (sk, pk, noise) ∧
    (registered gk0.kay gk0.enn [[], pk])[0]? = some pk ∧
    (addAll gk0 [[], pk]).1.encrypt delta [10, 20, 30, 40, 50] exRnd exRnd exRnd = .ok (ct, w) ∧
    (registered gk0.kay gk0.enn [[], pk]).length ≤ 1 := ⟨_, _, _, _, _, _, rfl, rfl, rfl, rfl, by decide⟩

end library
end Verif.Props
