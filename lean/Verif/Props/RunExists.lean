/-
C66: runs of the driver program that get to the end of the proofs exist.
-/
import Verif.Props.Program
import Verif.Props.ShamirRank

namespace Verif.Props
open Spec Regev
open scoped BigOperators

section
variable {q : ℕ} [Fact q.Prime]

/-- Random bits for a vector whose only nonzero coefficient is a 1 in front. -/
def unitRnd : Rnd := fun _ i j => if i = 0 ∧ j = 0 then (1, false) else (0, false)

/-- That vector. -/
def unitVec (q len : ℕ) : EVec q 2 := (List.range len).map fun i => if i = 0 then 1 else 0

theorem unit_element (bits : ℕ) (hb : 0 < bits) (t i : ℕ) :
    (boundedElement bits (unitRnd t i) : Elt (ZMod q) 2) = if i = 0 then 1 else 0 := by
  apply Elt.ext
  funext k
  have h1 : 1 % 2 ^ bits = 1 := Nat.mod_eq_of_lt (Nat.one_lt_two_pow (by omega))
  have hk : k = 0 ∨ k = 1 := by omega
  unfold boundedElement unitRnd boundedScalar
  by_cases hi : i = 0
  · rw [if_pos hi]
    rcases hk with rfl | rfl
    · simp [hi, h1, one_c0]
    · simp [hi, one_c1]
  · rw [if_neg hi]
    simp [hi]

theorem unit_getD (len i : ℕ) : (unitVec q len).getD i 0 = if i = 0 ∧ 0 < len then 1 else 0 := by
  unfold unitVec
  rw [List.getD_eq_getElem?_getD, List.getElem?_map]
  by_cases hi : i < len
  · rw [List.getElem?_range hi, Option.map_some, Option.getD_some]
    by_cases h0 : i = 0
    · rw [if_pos h0, if_pos ⟨h0, by omega⟩]
    · rw [if_neg h0, if_neg (by tauto)]
  · rw [List.getElem?_eq_none (by simpa using hi), if_neg (by omega)]
    rfl

theorem unit_coeffs (len : ℕ) : coeffs (unitVec q len) =
    (if len = 0 then [] else (1 : ZMod q) :: 0 :: List.replicate (2 * (len - 1)) 0) := by
  cases len with
  | zero => rfl
  | succ len =>
    rw [if_neg (by omega)]
    unfold unitVec coeffs
    rw [List.range_succ_eq_map, List.map_cons, List.flatMap_cons, if_pos rfl]
    have e1 : List.ofFn (1 : Elt (ZMod q) 2).c = [1, 0] := by
      simp [List.ofFn_succ, one_c0, one_c1]
    rw [e1, List.map_map]
    have e2 : ∀ m : ℕ, (List.map ((fun i => if i = 0 then (1 : Elt (ZMod q) 2) else 0) ∘ Nat.succ) (List.range m)) =
        List.replicate m 0 := by
      intro m
      rw [List.eq_replicate_iff]
      refine ⟨by simp, ?_⟩
      intro b hb
      obtain ⟨i, -, rfl⟩ := List.mem_map.1 hb
      simp
    rw [e2]
    have e3 : ∀ m : ℕ, (List.replicate m (0 : Elt (ZMod q) 2)).flatMap (fun e => List.ofFn e.c) = List.replicate (2 * m) 0 := by
      intro m
      induction m with
      | zero => rfl
      | succ m ih =>
        rw [List.replicate_succ, List.flatMap_cons, ih]
        have : List.ofFn (0 : Elt (ZMod q) 2).c = [0, 0] := by
          simp [List.ofFn_succ]
        rw [this, show 2 * (m + 1) = 2 * m + 1 + 1 by ring, List.replicate_succ, List.replicate_succ]
        rfl
    rw [e3]
    rfl

variable [Fact (2 < q)]

theorem one_abs : (1 : ZMod q).valMinAbs = 1 := by
  have h : 2 < q := Fact.out
  have := valMinAbs_cast (q := q) 1 (by rw [abs_one]; omega)
  simpa using this

theorem unit_norm (len : ℕ) : normSq (coeffs (unitVec q len)) ≤ 1 ∧ l1 (unitVec q len) ≤ 1 := by
  unfold l1 normSq
  rw [unit_coeffs]
  split
  · simp
  · simp [one_abs]

theorem unit_sample (len bits : ℕ) (hb : 0 < bits) (bound : ℤ) (hB : 1 ≤ bound) (tries : ℕ) (ht : 0 < tries) :
    sampleLoop len bits bound unitRnd 0 tries = .ok (unitVec q len) := by
  obtain ⟨k, rfl⟩ : ∃ k, tries = k + 1 := ⟨tries - 1, by omega⟩
  have : NeZero q := ⟨(Fact.out : q.Prime).ne_zero⟩
  unfold sampleLoop
  simp only
  have e : ((List.range len).map fun i => boundedElement bits (unitRnd 0 i) : EVec q 2) = unitVec q len := by
    unfold unitVec
    refine List.map_congr_left fun i _ => unit_element bits hb 0 i
  rw [e, if_pos]
  rw [normSquaredE_eq]
  exact (unit_norm len).1.trans hB

theorem unit_drawn (len bits : ℕ) (hb : 0 < bits) (bound : ℤ) (hB : 1 ≤ bound) (tries : ℕ) (ht : 0 < tries) :
    Drawn q len bits bound unitRnd tries := by
  have : NeZero q := ⟨(Fact.out : q.Prime).ne_zero⟩
  refine ⟨0, ht, ?_⟩
  have e : ((List.range len).map fun i => boundedElement bits (unitRnd 0 i) : EVec q 2) = unitVec q len := by
    unfold unitVec
    refine List.map_congr_left fun i _ => unit_element bits hb 0 i
  rw [e, normSquaredE_eq]
  exact (unit_norm len).1.trans hB

theorem unit_dot (a b : ℕ) (ha : 0 < a) (hb : 0 < b) : eltDot (unitVec q a) (unitVec q b) = 1 := by
  obtain ⟨a, rfl⟩ : ∃ k, a = k + 1 := ⟨a - 1, by omega⟩
  obtain ⟨b, rfl⟩ : ∃ k, b = k + 1 := ⟨b - 1, by omega⟩
  unfold eltDot unitVec
  rw [List.range_succ_eq_map, List.range_succ_eq_map, List.map_cons, List.map_cons, List.zipWith_cons_cons,
    List.sum_cons, List.sum_eq_zero, if_pos rfl, add_zero, one_mul]
  intro x hx
  rw [List.map_map, List.map_map, List.zipWith_map] at hx
  obtain ⟨i, hi, rfl⟩ := List.getElem_of_mem hx
  simp

end

/-- The coins with which every key, noise and randomness is that vector; a sharing of 5. -/
def unitCoins (q : ℕ) : MainCoins q where
  keys := fun _ => (unitRnd, unitRnd)
  secret := 5
  shares := fun i => (i : ℕ)
  enc := fun _ => (unitRnd, unitRnd, unitRnd)
  reEnc := (unitRnd, unitRnd, unitRnd)

instance : Fact (2 < Regev.P) := ⟨by unfold Regev.P; norm_num⟩

theorem unit_coinsOk {gk : GlobalKey Regev.P 2} (hk : 0 < gk.kay) (hn : 0 < gk.enn) (h1 : 0 < gk.sigmaEnc1)
    (h2 : 0 < gk.sigmaEnc2) : CoinsOk gk (unitCoins Regev.P) := by
  have b0 : (1 : ℤ) ≤ 8 * gk.kay := by omega
  have p : ∀ s m : ℕ, 0 < m → (1 : ℤ) ≤ 4 ^ s * m := by
    intro s m hm
    have h4 : (1 : ℤ) ≤ 4 ^ s := one_le_pow₀ (by norm_num)
    have hm' : (1 : ℤ) ≤ m := by exact_mod_cast hm
    nlinarith
  refine ⟨fun i _ => ⟨?_, ?_⟩, fun i _ => ⟨?_, ?_, ?_⟩, ?_, ?_, ?_⟩
  · exact unit_drawn _ _ (by norm_num) _ b0 _ (by norm_num)
  · exact unit_drawn _ _ h1 _ (p _ _ hk) _ (by norm_num)
  · exact unit_drawn _ _ (by norm_num) _ b0 _ (by norm_num)
  · exact unit_drawn _ _ h1 _ (p _ _ hk) _ (by norm_num)
  · exact unit_drawn _ _ h2 _ (p _ _ hn) _ (by norm_num)
  · exact unit_drawn _ _ (by norm_num) _ b0 _ (by norm_num)
  · exact unit_drawn _ _ h1 _ (p _ _ hk) _ (by norm_num)
  · exact unit_drawn _ _ h2 _ (p _ _ hn) _ (by norm_num)

/-- What these coins lead to for party 1: unit vectors, and no decryption noise. -/
theorem unit_inputs (k n s1 s2 : ℤ) (crs : ℕ → ℕ → Elt (ZMod Regev.P) 2) (gk0 : GlobalKey Regev.P 2)
    (hnew : GlobalKey.new k n s1 s2 crs = .ok gk0) (gk : GlobalKey Regev.P 2) (inp : RoundInput Regev.P) (wrong : Bool)
    (h : mainInputs Regev.delta gk0 1 (unitCoins Regev.P) = .ok (gk, inp, wrong)) :
    l1 inp.decNoise = 0 ∧ l1 inp.encRnd ≤ 1 ∧ l1 inp.encNoise1 ≤ 1 ∧ l1 inp.encNoise2 ≤ 1 ∧ l1 inp.sk2 ≤ 1 ∧
      l1 inp.keyNoise ≤ 1 := by
  have hNZ : NeZero Regev.P := ⟨by unfold Regev.P; norm_num⟩
  obtain ⟨hs, hn0, hk, hn, hs1, hs2, -⟩ := new_shaped k n s1 s2 crs gk0 hnew
  obtain ⟨ht0, hte, hk0, he0⟩ := new_tee hnew
  have hsig : 0 < gk0.sigmaEnc1 ∧ 0 < gk0.sigmaEnc2 := by
    unfold GlobalKey.new at hnew
    split at hnew
    · cases hnew
    · omega
  unfold mainInputs at h
  obtain ⟨⟨gk', ks⟩, h1, h⟩ := Res.bind_eq_ok.1 h
  simp only at h
  obtain ⟨ptxt1, h2, h⟩ := Res.bind_eq_ok.1 h
  obtain ⟨ctxt1, h3, h⟩ := Res.bind_eq_ok.1 h
  obtain ⟨⟨sk, noise⟩, h4, h⟩ := Res.bind_eq_ok.1 h
  obtain ⟨dec, h5, h⟩ := Res.bind_eq_ok.1 h
  obtain ⟨wr, h6, h⟩ := Res.bind_eq_ok.1 h
  obtain ⟨ptxt3, h7, h⟩ := Res.bind_eq_ok.1 h
  obtain ⟨⟨ct2, r, e1, e2⟩, h8, h⟩ := Res.bind_eq_ok.1 h
  simp only at h
  obtain ⟨ctMat, h9, h⟩ := Res.bind_eq_ok.1 h
  obtain ⟨ctVec, h10, h⟩ := Res.bind_eq_ok.1 h
  obtain ⟨lagrange, h11, h⟩ := Res.bind_eq_ok.1 h
  obtain ⟨hgk, hrest⟩ := Prod.mk.inj (Res.ok.inj h)
  obtain ⟨hinp, -⟩ := Prod.mk.inj hrest
  subst hgk
  subst hinp
  dsimp only
  simp only at h5
  obtain ⟨pks, a1, a2, a3, a5, a4⟩ := genAll_ok _ _ _ _ _ _ h1
  have hist := C38_history gk0 hn0 hs.rowsB pks
  have ek : gk'.kay = gk0.kay := by rw [a1, hist.1]
  have ee : gk'.enn = gk0.enn := by rw [a1, hist.1]
  have et : gk'.tee = gk0.tee := by rw [a1, hist.1]
  have es1 : gk'.sigmaEnc1 = gk0.sigmaEnc1 := by rw [a1, hist.1]
  have es2 : gk'.sigmaEnc2 = gk0.sigmaEnc2 := by rw [a1, hist.1]
  have eA : gk'.A = gk0.A := by rw [a1, hist.1]
  have hs' : Shaped gk' := by rw [a1]; exact addAll_shaped gk0 hs hn0 pks
  have hks := rd_get h4
  have hparty : 1 < gk'.enn := by
    by_contra hc
    rw [List.getElem?_eq_none (by omega)] at hks
    cases hks
  obtain ⟨sk', no', pk, b1, b2, b3⟩ := a4 1 (by omega)
  rw [hks] at b1
  obtain ⟨rfl, rfl⟩ := Prod.mk.inj (Option.some.inj b1)
  have hkey : gk0.keyGen unitRnd unitRnd = .ok (sk, pk, noise) := by
    rw [(C38_history gk0 hn0 hs.rowsB (pks.take 1)).1] at b3; exact b3
  obtain ⟨k1, k2, hpk⟩ := keyGen_ok gk0 hs _ _ _ _ _ hkey
  have pos : ∀ s m : ℕ, 0 < m → (1 : ℤ) ≤ 2 ^ (2 * s) * m * (2 : ℕ) / 2 := by
    intro s m hm
    have h4 : (1 : ℤ) ≤ 2 ^ (2 * s) := one_le_pow₀ (by norm_num)
    have hm' : (1 : ℤ) ≤ m := by exact_mod_cast hm
    have : (1 : ℤ) ≤ 2 ^ (2 * s) * m := by nlinarith
    push_cast
    omega
  have hsk : sk = unitVec Regev.P gk0.kay := by
    rw [unit_sample _ _ (by unfold rho; norm_num) _ (by push_cast; omega) _ (by norm_num)] at k1
    exact (Res.ok.inj k1).symm
  have hno : noise = unitVec Regev.P gk0.kay := by
    rw [unit_sample _ _ hsig.1 _ (pos _ _ hk0) _ (by norm_num)] at k2
    exact (Res.ok.inj k2).symm
  -- what an encryption uses
  have henc : ∀ (ptxt : List (ZMod Regev.P)) (ct : EVec Regev.P 2 × EVec Regev.P 2) (r e1 e2 : EVec Regev.P 2),
      gk'.encrypt Regev.delta ptxt unitRnd unitRnd unitRnd = .ok (ct, (r, e1, e2)) →
      r = unitVec Regev.P gk0.kay ∧ e1 = unitVec Regev.P gk0.kay ∧ e2 = unitVec Regev.P gk0.enn := by
    intro ptxt ct r e1 e2 he
    obtain ⟨-, c1, c2, c3, -, -⟩ := encrypt_ok _ gk' hs' _ _ _ _ _ _ _ _ he
    rw [unit_sample _ _ (by unfold rho; norm_num) _ (by push_cast; omega) _ (by norm_num)] at c1
    rw [unit_sample _ _ (by omega) _ (pos _ _ (by omega)) _ (by norm_num)] at c2 c3
    rw [← ek, ← ee]
    exact ⟨(Res.ok.inj c1).symm, (Res.ok.inj c2).symm, (Res.ok.inj c3).symm⟩
  obtain ⟨r', e1', e2'⟩ := henc _ _ _ _ _ h8
  rw [r', e1', e2', hsk, hno]
  refine ⟨?_, (unit_norm _).2, (unit_norm _).2, (unit_norm _).2, (unit_norm _).2, (unit_norm _).2⟩
  have hall : registered gk0.kay gk0.enn pks = pks := by
    unfold registered
    rw [List.filter_eq_self.2, List.take_of_length_le (by omega)]
    intro p hp
    obtain ⟨j, hj, rfl⟩ := List.getElem_of_mem hp
    obtain ⟨s, hsj⟩ := a5 j (by omega)
    rw [hist.2.2 j _ (List.getElem?_eq_getElem hj)] at hsj
    by_contra hc
    rw [if_neg (by intro hh; exact hc (by simpa using hh.1))] at hsj
    cases hsj
  have hBi : gk'.B.getD 1 [] = pk := by
    rw [a1, hist.1, hall]
    simp only [List.getD_eq_getElem?_getD]
    rw [List.getElem?_append_left (by omega), b2]
    rfl
  obtain ⟨l3, g3⟩ := mapRes_range h3
  obtain ⟨l5, g5⟩ := mapRes_range h5
  have hdl : Regev.delta = 2 ^ 126 := by decide
  have hzero : ∀ e ∈ dec.map Prod.snd, e = 0 := by
    intro e he
    obtain ⟨⟨x, e'⟩, hd, rfl⟩ := List.mem_map.1 he
    obtain ⟨i, hi, hd⟩ := List.getElem_of_mem hd
    rw [l5] at hi
    obtain ⟨⟨x', e''⟩, y1, y2⟩ := g5 i hi
    rw [List.getElem?_eq_getElem (by omega), hd] at y1
    obtain ⟨rfl, rfl⟩ := Prod.mk.inj (Option.some.inj y1)
    obtain ⟨c, y3, y4⟩ := Res.bind_eq_ok.1 y2
    obtain ⟨c', u1, u2⟩ := g3 i (by omega)
    have y3 := rd_get y3
    rw [u1] at y3
    obtain rfl := Option.some.inj y3
    obtain ⟨p, u3, u2⟩ := Res.bind_eq_ok.1 u2
    obtain ⟨⟨ct, r3, e13, e23⟩, u4, u2⟩ := Res.bind_eq_ok.1 u2
    obtain rfl := Res.ok.inj u2
    obtain ⟨v1, v2, v3⟩ := henc _ _ _ _ _ u4
    have hdec := C34_decrypt 1 Regev.delta (by unfold Regev.delta; norm_num) gk' hs' sk noise
      (by rw [ek, hsk]; simp [unitVec]) (by rw [ek, hno]; simp [unitVec]) 1 hparty
      (by rw [hBi]; unfold IsPublicKey; rw [ek, eA]; exact hpk) p _ _ _ ct r3 e13 e23 u4 (fun _ => 0) (by
        rw [hno, hsk, v1, v2, v3, unit_dot _ _ hk0 hk0, unit_getD, if_neg (by omega)]
        apply Elt.ext
        funext k
        simp [Elt.add_c]) (by
        intro k _
        simp
        unfold Regev.P
        norm_num) (by rw [hdl]; norm_num) (by rw [hdl]; norm_num)
    have := (Prod.mk.inj (Res.ok.inj (hdec.symm.trans y4))).2
    rw [← this]
    apply Elt.ext
    funext k
    simp
  unfold l1
  apply List.sum_eq_zero
  intro z hz
  obtain ⟨s, hs1, rfl⟩ := List.mem_map.1 hz
  unfold coeffs at hs1
  obtain ⟨e, he, hs2⟩ := List.mem_flatMap.1 hs1
  rw [hzero e he, List.mem_ofFn] at hs2
  obtain ⟨j, rfl⟩ := hs2
  simp

theorem small_zero {G : Type} [AddCommGroup G] [Module (ZMod Regev.P) G] {E : Env (ZMod Regev.P) G}
    (hz : ∀ st l n, (E.challenge st l n).1 = List.replicate n 0) {P : Params Regev.P} (hB : 1 ≤ P.B_smallness)
    (hbits : 0 < P.smlnsBits) (st : E.St) (ix : Indexes) (Gs : List G) (v : EVec Regev.P 2) (r : ZMod Regev.P) :
    SmallAccepted E P st ix Gs v (fun _ => ⟨unitRnd 0, r⟩) 0 := by
  have hρ : ∀ (m n m' i j : ℕ), (ternaryOf (List.replicate m 0) n m' i j : Elt (ZMod Regev.P) 2) = 0 := by
    intro m n m' i j
    apply Elt.ext
    funext k
    unfold ternaryOf ternEntry
    have e : ∀ d x : ℕ, ((List.replicate m (0 : UInt8)).drop d).getD x 0 = 0 := by
      intro d x
      rw [List.drop_replicate, List.getD_eq_getElem?_getD, List.getElem?_replicate]
      split <;> rfl
    simp only [e]
    simp [ofBits]
  have hu : ∀ st : E.St, compressLeft 1300 64 v (matrixFrom E st "Smallness" 1300 64).1 = List.replicate 64 0 := by
    intro st
    unfold compressLeft matrixFrom
    rw [List.eq_replicate_iff]
    refine ⟨by simp, ?_⟩
    intro b hb
    obtain ⟨j, -, rfl⟩ := List.mem_map.1 hb
    apply Finset.sum_eq_zero
    intro i _
    simp only
    rw [hz, hρ, mul_zero]
  have hy : smallMask P (fun _ => ⟨unitRnd 0, r⟩) 0 = unitVec Regev.P 64 := by
    unfold smallMask unitVec
    exact List.map_congr_left fun i _ => unit_element _ hbits 0 i
  have hsum : List.zipWith (· + ·) (List.replicate 64 (0 : Elt (ZMod Regev.P) 2)) (unitVec Regev.P 64) =
      unitVec Regev.P 64 := by
    have hgen : ∀ (m : ℕ) (v : EVec Regev.P 2), v.length = m → List.zipWith (· + ·) (List.replicate m 0) v = v := by
      intro m
      induction m with
      | zero => intro v hv; rw [List.length_eq_zero_iff.1 hv]; rfl
      | succ m ih =>
        intro v hv
        cases v with
        | nil => cases hv
        | cons a v => rw [List.replicate_succ, List.zipWith_cons_cons, ih v (by simpa using hv), zero_add]
    exact hgen 64 _ (by simp [unitVec])
  unfold SmallAccepted
  simp only
  rw [hu, hy, hsum]
  constructor
  · intro s hs
    unfold coeffs at hs
    obtain ⟨e, he, hs2⟩ := List.mem_flatMap.1 hs
    rw [List.eq_of_mem_replicate he, List.mem_ofFn] at hs2
    obtain ⟨j, rfl⟩ := hs2
    simp
    rw [Int.fdiv_eq_ediv_of_nonneg _ (by norm_num)]
    omega
  · intro s hs
    rw [unit_coeffs, if_neg (by norm_num)] at hs
    rcases List.mem_cons.1 hs with rfl | hs
    · rw [one_abs]; simpa using hB
    · have h0 : s = 0 := by
        rcases List.mem_cons.1 hs with h | h
        · exact h
        · exact List.eq_of_mem_replicate h
      rw [h0]
      simp
      omega

theorem quot_lo {d B r : ℤ} (hr : 0 < r) (h1 : 59000 * d ≤ B * r) (h2 : r ≤ d) : 59000 ≤ B := by
  by_contra hc
  push Not at hc
  nlinarith

theorem digits_room {P : Params Regev.P} {B l : ℤ} {dim : ℕ} (hr : 16 ≤ P.radix) (hB : P.radix ^ 2 ≤ B) (hl : l ≤ 1) :
    8 * (2 * l + P.radix) ≤ P.radix * hiBound P B dim := by
  have hr0 : 0 < P.radix := by omega
  have h1 : P.radix ≤ B.fdiv P.radix := by
    rw [Int.fdiv_eq_ediv_of_nonneg _ hr0.le, Int.le_ediv_iff_mul_le hr0]
    linarith [pow_two P.radix]
  have h2 : P.radix ≤ hiBound P B dim := by
    unfold hiBound
    omega
  nlinarith

/-- The steps of that run: the constructors, the inputs, the bounds, the commitment to the key, the proof functions. -/
theorem unit_round {G : Type} [AddCommGroup G] [Module (ZMod Regev.P) G] {E : Env (ZMod Regev.P) G}
    (hz : ∀ st l n, (E.challenge st l n).1 = List.replicate n 0) (getG getH : ℕ → G)
    (ntlKernel : List (List (ZMod Regev.P)) → List (List (ZMod Regev.P)))
    (hker : ∀ G nr nc, G.length = nr → (∀ r ∈ G, r.length = nc) → LeftKernelBasis (ntlKernel G) G nr nc)
    (bounds : GlobalKey Regev.P 2 → List (List (ZMod Regev.P)) → Res (Params Regev.P))
    (n : ℕ) (h5 : 5 ≤ n) (hn : n < 2 ^ 30) (hb : Precise bounds n) (h4 : 4 ∣ (setParams 2 n).1 ∧ 4 ∣ n)
    (crs : ℕ → ℕ → Elt (ZMod Regev.P) 2) (mer : E.St) (rnd0 fresh : Blocks (ZMod Regev.P)) (r : ZMod Regev.P)
    {tests : ℕ → Tests} (hT : ∀ k, NoFalsePrimes (tests k).probPrime) :
    ∃ gk0 sp gk inp P vd0 vd pd vd2 pd2 b m,
      GlobalKey.new (setParams 2 n).1 n (setParams 2 n).2.1 (setParams 2 n).2.2 crs = .ok gk0 ∧
      SharingParams.make ntlKernel (interval 1 ((gk0.enn : ℤ) + 1)) gk0.tee = .ok sp ∧
      mainInputs Regev.delta gk0 1 (unitCoins Regev.P) = .ok (gk, inp, false) ∧ bounds gk sp.H = .ok P ∧
      newVerifierData getG getH P mer = .ok vd0 ∧
      commitKey E inp.sk1 r vd0 (newProverData rnd0) = .ok (vd, pd) ∧
      proveRound E P fresh tests (fun _ => ⟨unitRnd 0, r⟩) inp vd pd = .ok (vd2, pd2) ∧
      Standard P.gk n ∧ BoundsClose P b m ∧ ParamsOk P ∧ Honest P inp ∧ Start E P inp.sk1 vd pd ∧
      l1 inp.decNoise = 0 ∧ l1 inp.encRnd ≤ 1 ∧ l1 inp.encNoise1 ≤ 1 ∧ l1 inp.encNoise2 ≤ 1 ∧ l1 inp.sk2 ≤ 1 ∧
      l1 inp.keyNoise ≤ 1 := by
  have hE : LengthOk E := by
    intro st l m
    rw [hz, List.length_replicate]
  obtain ⟨gk0, hnew, hst0, hs0, ht⟩ := standard_exists n h5 hn crs
  have hker' : ∀ G nr nc, G.length = nr → (∀ r ∈ G, r.length = nc) → GeneratesLeftKernel (ntlKernel G) G nr nc :=
    fun G nr nc a b => (hker G nr nc a b).1
  obtain ⟨-, hn0, hk, hen, -, -, -⟩ := new_shaped _ _ _ _ _ _ hnew
  obtain ⟨-, hte, hk0, he0⟩ := new_tee hnew
  have henn := hst0.enn
  obtain ⟨sp, hsp, -, -, -⟩ := C24_parity_check ntlKernel hker' (interval 1 ((gk0.enn : ℤ) + 1)) gk0.tee (by omega)
  have hnP : ((n : ℕ) : ℤ) < Regev.P := by
    have : (2 : ℤ) ^ 30 < (Regev.P : ℕ) := by unfold Regev.P; norm_num
    omega
  have hsig : 0 < gk0.sigmaEnc1 ∧ 0 < gk0.sigmaEnc2 := by
    obtain ⟨c1, c2, c3, -⟩ := C35_setParams n (by omega) hn
    have d1 := hst0.sigma1
    have d2 := hst0.sigma2
    omega
  obtain ⟨⟨gk, inp, wr⟩, hin⟩ := (C66_inputs_defined Regev.delta _ _ _ _ crs gk0 hnew hnP (by omega) 1 (by omega)
    (unitCoins Regev.P)).1 (unit_coinsOk hk0 he0 hsig.1 hsig.2)
  have hpar := (C35_setParams n (by omega) hn).2.2.2
  have hw := C66_no_error _ _ _ _ hpar crs gk0 hnew 1 _ gk inp wr hin
  rw [hw] at hin
  obtain ⟨g1, g2, g3, g4, g5⟩ := mainInputs_gk hs0 hn0 hin
  have hst : Standard gk n :=
    ⟨by rw [g1]; exact hst0.kay, by rw [g2]; exact hst0.enn, by rw [g4]; exact hst0.sigma1,
      by rw [g5]; exact hst0.sigma2⟩
  obtain ⟨P, b0, b1, b2, b3, b, m, hbc⟩ := hb gk sp.H hst
  obtain ⟨hI, -, epk, hpk, hla, ek, ee, et, hsh⟩ := C66_inputs Regev.delta (by unfold Regev.delta; norm_num) _ _ _ _ crs
    gk0 hnew hnP (by omega) ntlKernel hker' sp hsp 1 _ gk inp hin P b1 b2 b3
  have hstP : Standard P.gk n := by rw [b1]; exact hst
  obtain ⟨o1, o2, o3, hP, hB0, hBm⟩ := C67_bounds hstP h5 hn (by rw [b1]; exact hsh)
    (by rw [b1, et]; exact ht) hbc
  obtain ⟨-, -, -, f1, f2, f3, f4, f5, f6, f7, -, -, hkk⟩ := standard_facts hstP h5 hn hbc
  obtain ⟨s1, s2, s3⟩ := smallness_lo hstP h5 hn hbc
  have hB : 59000 ≤ P.B_smallness := quot_lo (by omega) s1 s2
  have hbits : 0 < P.smlnsBits := by
    by_contra hc
    have : P.smlnsBits = 0 := by omega
    rw [this] at f7
    omega
  have hgood := interval_good (q := Regev.P) gk0.enn (by omega) (by omega)
  have hpts : (interval 1 ((gk0.enn : ℤ) + 1)).length = gk0.enn := by
    rw [interval_get]; simp
  have hrows := C24_rows ntlKernel hker _ hgood gk0.tee (by omega) (by rw [hpts]; omega) sp hsp
  rw [hpts] at hrows
  have hrow : ∀ row ∈ P.H, row.length = 1 + P.gk.enn := by
    rw [b2]
    intro row hrow
    unfold SharingParams.make genMatrix at hsp
    rw [if_neg (by omega)] at hsp
    obtain rfl := Res.ok.inj hsp
    have := (hker' _ (gk0.enn + 1) gk0.tee (by simp [hpts]) (by
      intro r hr
      rcases List.mem_cons.1 hr with rfl | hr
      · simp; omega
      · obtain ⟨ep, -, rfl⟩ := List.mem_map.1 hr
        exact genRow_length _ _ _)).1 row hrow
    rw [this, b1, ee, add_comm]
  -- the constructors
  have hennP := hstP.enn
  have htn : P.gk.tee ≤ P.gk.enn := by rw [b1]; omega
  have htee : 2 * P.gk.tee ≤ P.gk.enn := by
    rw [b1, et, ee]
    have hnew' := hnew
    unfold GlobalKey.new at hnew'
    simp only at hnew'
    split at hnew'
    · cases hnew'
    · split at hnew'
      · cases hnew'
      · obtain rfl := Res.ok.inj hnew'
        dsimp only
        omega
  obtain ⟨vd, vd', pd', h1, h2, S, hlen⟩ := C64_start E P getG getH mer rnd0 inp.sk1 r hI.sk1 (by omega) (by
    obtain ⟨ix, hix⟩ := (C39_defined P.gk.kay 2 P.gk.enn P.gk.tee).2 (by omega)
    unfold setIndexes at hix
    simp only at hix
    split at hix
    · assumption
    · cases hix)
  -- the norms
  obtain ⟨n0, n1, n2, n3, n4, n5⟩ := unit_inputs _ _ _ _ crs gk0 hnew gk inp false hin
  have hhi : ∀ (B : ℤ) (dim : ℕ) (v : EVec Regev.P 2), P.B_kNoise ≤ B → l1 v ≤ 1 →
      8 * (2 * l1 v + P.radix) ≤ P.radix * hiBound P B dim := by
    intro B dim v hBk hl
    exact digits_room (by omega) (s3.trans hBk) hl
  have hke := hbc.eNoise1
  have hre := hbc.r
  have hdiv : 4 ∣ P.gk.kay ∧ 4 ∣ P.gk.enn := by
    have := hstP.kay
    rw [hennP]
    exact ⟨by have := h4.1; omega, h4.2⟩
  obtain ⟨⟨vd2, pd2⟩, hr⟩ := (C64_live hE hP hT fresh (fun _ => ⟨unitRnd 0, r⟩) hI S hdiv (by rw [epk, b1]; exact hpk)
    (by rw [hla, b1]) hrow (by rw [hlen, b2, hrows, b1, ee, et]; omega) hB0
    (hhi _ _ _ (by omega) (by omega))
    (by rw [show normBound P 2 = P.B_r from rfl]; omega)
    (hhi _ _ _ (by omega) n2) (hhi _ _ _ (by omega) n3)
    (by rw [show normBound P 7 = P.B_sk from rfl]; omega)
    (hhi _ _ _ (by omega) n5)).2 fun st ix Gs v _ => ⟨0, by norm_num, small_zero hz (by omega) hbits st ix Gs v r⟩
  exact ⟨gk0, sp, gk, inp, P, vd, vd', pd', vd2, pd2, b, m, hnew, hsp, hin, b0, h1, h2, hr, hstP, hbc, hP, hI, S, n0, n1,
    n2, n3, n4, n5⟩

/-- **C66, runs exist.** If both dimensions are multiples of 4 then there are coins with which the program gets to
the end of the proof functions: for any CRS and generators, any precise enough norm bounds, and a transcript
whose challenges are all zero. -/
theorem C66_run_exists {G : Type} [AddCommGroup G] [Module (ZMod Regev.P) G] {E : Env (ZMod Regev.P) G}
    (hz : ∀ st l n, (E.challenge st l n).1 = List.replicate n 0) (getG getH : ℕ → G)
    (ntlKernel : List (List (ZMod Regev.P)) → List (List (ZMod Regev.P)))
    (hker : ∀ G nr nc, G.length = nr → (∀ r ∈ G, r.length = nc) → LeftKernelBasis (ntlKernel G) G nr nc)
    (bounds : GlobalKey Regev.P 2 → List (List (ZMod Regev.P)) → Res (Params Regev.P))
    (n : ℕ) (h5 : 5 ≤ n) (hn : n < 2 ^ 30) (hb : Precise bounds n) (h4 : 4 ∣ (setParams 2 n).1 ∧ 4 ∣ n)
    (crs : ℕ → ℕ → Elt (ZMod Regev.P) 2) (mer : E.St) (rnd0 fresh : Blocks (ZMod Regev.P)) (r : ZMod Regev.P)
    {tests : ℕ → Tests} (hT : ∀ k, NoFalsePrimes (tests k).probPrime) :
    ∃ (C : MainCoins Regev.P) (small : ℕ → SmallRnd Regev.P) (P : Params Regev.P)
      (vd : VerifierData (ZMod Regev.P) G E.St) (pd : ProverData (ZMod Regev.P)),
      mainProve E getG getH ntlKernel bounds Regev.delta (setParams 2 n).1 n (setParams 2 n).2.1
        (setParams 2 n).2.2 crs 1 C mer rnd0 fresh r tests small = .ok (false, P, vd, pd) := by
  obtain ⟨gk0, sp, gk, inp, P, vd, vd', pd', vd2, pd2, b, m, hnew, hsp, hin, b0, h1, h2, hr, -⟩ :=
    unit_round hz getG getH ntlKernel hker bounds n h5 hn hb h4 crs mer rnd0 fresh r hT
  refine ⟨unitCoins Regev.P, fun _ => ⟨unitRnd 0, r⟩, P, vd2, pd2, ?_⟩
  unfold mainProve
  rw [hnew, Res.ok_bind, hsp, Res.ok_bind, hin, Res.ok_bind]
  simp only
  rw [b0, Res.ok_bind, h1, Res.ok_bind, h2, Res.ok_bind]
  simp only
  rw [hr]
  rfl

/-- A transcript whose challenges are all zero, over the group of scalars. -/
def zeroEnv : Env (ZMod Regev.P) (ZMod Regev.P) where
  St := List Bytes
  init l := [l]
  commit st l m := st ++ [l, m]
  challenge st l n := (List.replicate n 0, st ++ [l])
  scalarBytes x := decBytes x.val
  pointBytes x := decBytes x.val
  scalarReduce b := b.length + 1
  fromUniform b := b.length
  hashToCurve b := b.length
  base := 1

/-- A run of the program with 256 parties, as in the hypotheses of `C66_standard` and `C66_run`. -/
theorem program_run_256 : ∃ ntlKernel C small P vd pd, ∀ rnd : Blocks (ZMod Regev.P),
    (∀ G nr nc, G.length = nr → (∀ r ∈ G, r.length = nc) → GeneratesLeftKernel (ntlKernel G) G nr nc) ∧
    (rnd = ⟨1, 2, 3, 4, 5, 6, 7, 8, 9, 10, 11, 12, 13, 14, 15, 16, 17, 18, 19, 20, 21, 22, 23, 24, 25, 26, 27⟩ →
    mainProve zeroEnv (fun i => (i : ZMod Regev.P)) (fun i => (2 * i + 1 : ℕ)) ntlKernel
      (verifierBounds Regev.delta) Regev.delta (setParams 2 256).1 256 (setParams 2 256).2.1 (setParams 2 256).2.2
      (fun i j => ⟨![(i : ZMod Regev.P), (j : ZMod Regev.P)]⟩) 1 C [] rnd rnd 7
      (fun _ => ⟨fun _ => false, fun _ => false⟩) small = .ok (false, P, vd, pd)) := by
  obtain ⟨k, hk⟩ := kernel_exists (ZMod Regev.P)
  have hb : Precise (verifierBounds Regev.delta) 256 := by
    intro gk H hs
    obtain ⟨P, b, m, h1, h2, h3, h4, h5⟩ := C67_model Regev.delta gk H hs (by norm_num) (by norm_num)
    exact ⟨P, h1, h2, h3, h4, b, m, h5⟩
  obtain ⟨C, small, P, vd, pd, h⟩ := C66_run_exists (E := zeroEnv) (fun _ _ _ => rfl) (fun i => (i : ZMod Regev.P))
    (fun i => (2 * i + 1 : ℕ)) k hk _ 256 (by norm_num) (by norm_num) hb
    ⟨by rw [C66_good_dimension.1]; norm_num, by norm_num⟩
    (fun i j => ⟨![(i : ZMod Regev.P), (j : ZMod Regev.P)]⟩) []
    ⟨1, 2, 3, 4, 5, 6, 7, 8, 9, 10, 11, 12, 13, 14, 15, 16, 17, 18, 19, 20, 21, 22, 23, 24, 25, 26, 27⟩
    ⟨1, 2, 3, 4, 5, 6, 7, 8, 9, 10, 11, 12, 13, 14, 15, 16, 17, 18, 19, 20, 21, 22, 23, 24, 25, 26, 27⟩ 7
    (tests := fun _ => ⟨fun _ => false, fun _ => false⟩) (fun _ p hp => by cases hp)
  exact ⟨k, C, small, P, vd, pd, fun rnd => ⟨fun G nr nc a b => (hk G nr nc a b).1, by rintro rfl; exact h⟩⟩

end Verif.Props
